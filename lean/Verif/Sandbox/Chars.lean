/-! Notation for texts as lists of characters, which the kernel compares quickly. -/

/-- `c!"abc"` is the list `['a', 'b', 'c']`. -/
macro:max "c!" s:str : term => do
  let cs := s.getString.toList.toArray.map fun c => Lean.Syntax.mkCharLit c
  `([$cs,*])
