import Verif.Model.SharingStack

/-! # The contexts a thread is inside -/

namespace OE.Spec
open OE OE.Sharing
variable {C : Type}

/-- The caches of the contexts that are open after some commands, the innermost last; `none` if a context is left that was not
entered or the active cache is asked for outside every context. -/
def openContexts : List (Cmd C) → List C → Option (List C)
  | [], open_ => some open_
  | .enter c :: cmds, open_ => openContexts cmds (open_ ++ [c])
  | .leave :: cmds, open_ => if open_.isEmpty then none else openContexts cmds open_.dropLast
  | .getCache :: cmds, open_ => if open_.isEmpty then none else openContexts cmds open_

/-- The program of a thread uses contexts as `with` statements do: whatever is left was entered before (and the active cache is asked for
only inside a context). -/
def WellNested (cmds : List (Cmd C)) : Prop := openContexts cmds [] ≠ none

end OE.Spec
