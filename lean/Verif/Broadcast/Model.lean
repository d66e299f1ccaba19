import Mathlib.Data.List.Basic
import Mathlib.Data.List.Perm.Basic

/-!
# The broadcaster

`Broadcaster.Run` and the functions that talk to it (/repo/broadcaster/subscriber.go:74-206), with the handler that
creates subscribers (/repo/cmd/omegaup-broadcaster/main.go:276-328) and the part of `Subscriber.Run` that takes
messages from the subscriber's channel (broadcaster/subscriber.go:332-375).

The process is a sequence of atomic actions of the HTTP handlers, of `Broadcaster.Run` and of the goroutines of the
subscribers. The loops over all subscribers are not atomic: each subscriber is one action, and the others run in
between. `range` over a map visits the keys in any order. Channels are lists, the oldest element first; the buffers
have the capacities of the code, taken to be positive for `ChannelLength` (a send on an unbuffered channel, which
needs a waiting receiver, is not modelled).
-/

namespace Quark.Broadcast

/-- What is fixed: the user and the transport of each subscriber, which messages its filters accept, and
`ChannelLength`. -/
structure World (σ μ υ : Type) where
  user : σ → υ
  ws : σ → Bool
  wants : σ → μ → Bool
  channelLength : Nat

/-- The handler of a subscriber (cmd/omegaup-broadcaster/main.go:302-328). -/
inductive Phase where
  /-- not yet at `Subscribe` -/
  | fresh
  /-- in `subscriber.Run` -/
  | running
  /-- done -/
  | gone
  deriving DecidableEq

/-- Where `Broadcaster.Run` is (broadcaster/subscriber.go:111-155). -/
inductive Pc (σ μ υ : Type) where
  /-- at the select -/
  | idle
  /-- delivering a message to the remaining subscribers -/
  | dispatch (m : μ) (todo : List σ)
  /-- deauthenticating a user among the remaining subscribers -/
  | deauthing (u : υ) (todo : List σ)

/-- What `Broadcaster.Run` has done, for the specification only. -/
inductive Event (σ μ υ : Type) where
  | joined (s : σ)
  | message (m : μ)
  | deauth (u : υ)
  | left (s : σ)
  /-- the buffer of a subscriber was full -/
  | overflow (s : σ)

structure State (σ μ υ : Type) where
  /-- the keys of `subscribers` -/
  registered : List σ := []
  subscribeQ : List σ := []
  unsubscribeQ : List σ := []
  deauthQ : List υ := []
  messageQ : List μ := []
  /-- the channel `send` of each subscriber -/
  buffer : σ → List μ := fun _ => []
  closed : σ → Bool := fun _ => false
  /-- what the goroutine of each subscriber has taken from it and given to its connection -/
  taken : σ → List μ := fun _ => []
  phase : σ → Phase := fun _ => .fresh
  pc : Pc σ μ υ := .idle
  wsGauge : Int := 0
  sseGauge : Int := 0
  /-- a send on a closed channel or a second close of one, which end the process -/
  panicked : Bool := false
  /-- for the specification: the messages for which `Broadcast` returned true -/
  accepted : List μ := []
  /-- for the specification -/
  log : List (Event σ μ υ) := []

variable {σ μ υ : Type} [DecidableEq σ] [DecidableEq υ]

def upd {β : Type} (f : σ → β) (s : σ) (b : β) : σ → β := fun t => if t = s then b else f t

/-- `remove` (broadcaster/subscriber.go:98-106). -/
def remove (w : World σ μ υ) (st : State σ μ υ) (s : σ) : State σ μ υ :=
  if st.closed s then { st with registered := st.registered.erase s, panicked := true }
  else
    { st with
      registered := st.registered.erase s
      closed := upd st.closed s true
      wsGauge := if w.ws s then st.wsGauge - 1 else st.wsGauge
      sseGauge := if w.ws s then st.sseGauge else st.sseGauge - 1 }

inductive Act (σ μ υ : Type) where
  /-- a handler calls `Subscribe` (cmd/omegaup-broadcaster/main.go:321-324, broadcaster/subscriber.go:183-193) -/
  | connect (s : σ)
  /-- `subscriber.Run` has ended and the handler calls `Unsubscribe` (cmd/omegaup-broadcaster/main.go:325, broadcaster/subscriber.go:196-206) -/
  | disconnect (s : σ)
  /-- `Deauthenticate` (broadcaster/subscriber.go:159-161) -/
  | deauthenticate (u : υ)
  /-- `Broadcast` (broadcaster/subscriber.go:164-180) -/
  | broadcast (m : μ)
  /-- `Run` takes from a channel; `order` is the order of iteration -/
  | takeSubscribe
  | takeUnsubscribe
  | takeDeauth (order : List σ)
  | takeMessage (order : List σ)
  /-- `Run` goes on with the loop over the subscribers -/
  | next
  /-- the goroutine of a subscriber takes a message (broadcaster/subscriber.go:358-366) -/
  | take (s : σ)

/-- One action; `none` if it is not possible. -/
def step (w : World σ μ υ) (st : State σ μ υ) (a : Act σ μ υ) : Option (State σ μ υ) :=
  if st.panicked then none else
  match a with
  | .connect s =>
    if st.phase s ≠ .fresh then none
    else if st.subscribeQ.length < 5 then
      some { st with subscribeQ := st.subscribeQ ++ [s], phase := upd st.phase s .running }
    else some { st with phase := upd st.phase s .gone }
  | .disconnect s =>
    if st.phase s ≠ .running then none
    else if st.unsubscribeQ.length < 5 then
      some { st with unsubscribeQ := st.unsubscribeQ ++ [s], phase := upd st.phase s .gone }
    else some { st with phase := upd st.phase s .gone }
  | .deauthenticate u =>
    if st.deauthQ.length < 5 then some { st with deauthQ := st.deauthQ ++ [u] } else none
  | .broadcast m =>
    if st.messageQ.length < w.channelLength then
      some { st with messageQ := st.messageQ ++ [m], accepted := st.accepted ++ [m] }
    else some st
  | .takeSubscribe =>
    match st.pc, st.subscribeQ with
    | .idle, s :: q =>
      some { st with
        subscribeQ := q
        registered := if s ∈ st.registered then st.registered else s :: st.registered
        wsGauge := if w.ws s then st.wsGauge + 1 else st.wsGauge
        sseGauge := if w.ws s then st.sseGauge else st.sseGauge + 1
        log := st.log ++ [.joined s] }
    | _, _ => none
  | .takeUnsubscribe =>
    match st.pc, st.unsubscribeQ with
    | .idle, s :: q =>
      let st := { st with unsubscribeQ := q, log := st.log ++ [.left s] }
      some (if s ∈ st.registered then remove w st s else st)
    | _, _ => none
  | .takeDeauth order =>
    match st.pc, st.deauthQ with
    | .idle, u :: q =>
      if order.Perm st.registered then
        some { st with deauthQ := q, pc := .deauthing u order, log := st.log ++ [.deauth u] }
      else none
    | _, _ => none
  | .takeMessage order =>
    match st.pc, st.messageQ with
    | .idle, m :: q =>
      if order.Perm st.registered then
        some { st with messageQ := q, pc := .dispatch m order, log := st.log ++ [.message m] }
      else none
    | _, _ => none
  | .next =>
    match st.pc with
    | .idle => none
    | .dispatch _ [] => some { st with pc := .idle }
    | .dispatch m (s :: todo) =>
      let st := { st with pc := .dispatch m todo }
      if w.wants s m then
        if st.closed s then some { st with panicked := true }
        else if (st.buffer s).length < w.channelLength then
          some { st with buffer := upd st.buffer s (st.buffer s ++ [m]) }
        else some (remove w { st with log := st.log ++ [.overflow s] } s)
      else some st
    | .deauthing _ [] => some { st with pc := .idle }
    | .deauthing u (s :: todo) =>
      let st := { st with pc := .deauthing u todo }
      if w.user s = u then some (remove w st s) else some st
  | .take s =>
    if st.phase s ≠ .running then none
    else match st.buffer s with
      | [] => none
      | m :: ms => some { st with buffer := upd st.buffer s ms, taken := upd st.taken s (st.taken s ++ [m]) }

/-- The states that can be reached, with the actions that lead there. -/
inductive Reach (w : World σ μ υ) : State σ μ υ → Prop
  | init : Reach w {}
  | step {st st' a} : Reach w st → step w st a = some st' → Reach w st'

end Quark.Broadcast
