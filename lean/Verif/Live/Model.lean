import Verif.Broadcast.Props
import Verif.Sse.Props
import Verif.Filter.Model

/-!
# Subscribers that listen with Server-Sent Events

The broadcaster (`Verif.Broadcast.Model`), with the filters of its subscribers (`Verif.Filter.Model`) and what the goroutine of each
writes to its connection (`Verif.Sse.Model`), as one process: `Subscriber.Run` and `SSETransport`
(/repo/broadcaster/subscriber.go:332-375, /repo/broadcaster/transport.go:109-177) driven by `Broadcaster.Run`.
-/

namespace Quark.Live

open Quark.Broadcast (upd)

/-- `Message` (broadcaster/subscriber.go:45-53): whom it concerns, and its text. -/
structure Message where
  about : Filter.Message
  text : Sse.Bytes

/-- What is fixed: the subscribers (broadcaster/subscriber.go:208-223), which use WebSockets, and `ChannelLength`. -/
structure World (σ : Type) where
  who : σ → Filter.Subscriber
  ws : σ → Bool
  channelLength : Nat

/-- The broadcaster of this world: it is `Subscriber.Matches` that decides (broadcaster/subscriber.go:138, 318-327), and the user that
`Deauthenticate` compares (broadcaster/subscriber.go:122-127). -/
def World.core {σ : Type} (w : World σ) : Broadcast.World σ Message Filter.Text where
  user s := (w.who s).user
  ws := w.ws
  wants s m := (w.who s).accepts m.about
  channelLength := w.channelLength

structure State (σ : Type) where
  core : Broadcast.State σ Message Filter.Text := {}
  /-- what the loop of `Run` has found, turn by turn -/
  turns : σ → List Sse.Turn := fun _ => []
  /-- the loop of `Run` has been left -/
  over : σ → Bool := fun _ => false

inductive Act (σ : Type) where
  /-- anything else that the broadcaster, its handlers and the other processes do -/
  | other (a : Broadcast.Act σ Message Filter.Text)
  /-- The loop takes a message and writes it (broadcaster/subscriber.go:358-366). If the write fails, the loop is left. -/
  | send (s : σ) (failsAfter : Option Nat)
  /-- The ticker (broadcaster/subscriber.go:368-372). -/
  | ping (s : σ) (failsAfter : Option Nat)
  /-- The channel `close` is closed, which may be at any time because the connection has been lost (broadcaster/subscriber.go:355-356,
  broadcaster/transport.go:155-163), or `send` is closed (broadcaster/subscriber.go:359-362). -/
  | ends (s : σ)

variable {σ : Type} [DecidableEq σ]

/-- One action; `none` if it is not possible. The handler calls `Unsubscribe` when the loop has been left
(cmd/omegaup-broadcaster/main.go:324-325), not before. -/
def step (w : World σ) (st : State σ) : Act σ → Option (State σ)
  | .other (.take _) => none
  | .other (.disconnect s) =>
    if st.over s then (Broadcast.step w.core st.core (.disconnect s)).map fun c => { st with core := c } else none
  | .other a => (Broadcast.step w.core st.core a).map fun c => { st with core := c }
  | .send s f =>
    if st.over s then none
    else match st.core.buffer s with
      | [] => none
      | m :: _ => (Broadcast.step w.core st.core (.take s)).map fun c =>
          { core := c, turns := upd st.turns s (st.turns s ++ [.message m.text f]), over := upd st.over s f.isSome }
  | .ping s f =>
    if st.over s ∨ st.core.phase s ≠ .running then none
    else some { st with turns := upd st.turns s (st.turns s ++ [.ping f]), over := upd st.over s f.isSome }
  | .ends s =>
    if st.over s ∨ st.core.phase s ≠ .running then none
    else some { st with turns := upd st.turns s (st.turns s ++ [.ends]), over := upd st.over s true }

/-- The states that can be reached, with the actions that lead there. -/
inductive Reach (w : World σ) : State σ → Prop
  | init : Reach w {}
  | step {st st' a} : Reach w st → step w st a = some st' → Reach w st'

end Quark.Live
