import Verif.OutlineSpec

/-!
# Format switches between statements (specification for C18)

A region is what lies between `# cmake-format: off` and the next switch, if that is
`# cmake-format: on`.
-/

namespace Verif.Layout
open Verif Py Lex Parse

mutual
/-- No statement contains a format switch. -/
def outside : Node → Bool
  | .tok t => !isOnOff t
  | .node ty _ cs =>
    match ty with
    | .onoff => true
    | .body | .flowControl => outsideL cs
    | _ => (toksL cs).all fun t => !isOnOff t
/-- All of them. -/
def outsideL : List Node → Bool
  | [] => true
  | n :: ns => outside n && outsideL ns
end

/-- The format switches of a text, in order: true for `off`. -/
def switches (ts : List Token) : List Bool := (ts.filter isOnOff).map fun t => t.type == .formatOff

/-- Every `off` is followed by an `on` before the next `off`; `open` says that an `off` is
waiting for its `on`. -/
def closed : (waiting : Bool) → List Bool → Bool
  | waiting, [] => !waiting
  | waiting, off :: rest => (!(waiting && off)) && closed off rest

/-- The switch of a block, if it is one. -/
def switchOf : Node → Option Token
  | .node .onoff _ [.tok t] => some t
  | _ => none

/-- The switch an event consists of. -/
def eventSwitch : Event → Option Token
  | .blank => none
  | .block _ n => switchOf n

/-- The canonical switches. -/
def offText : Str := S "# cmake-format: off"
def onText : Str := S "# cmake-format: on"

/-- What is shown for the blocks and blank lines of a text, event by event (`B` for the blocks
that are not switches), except that an `off`, everything up to the next `on`, and that `on` are
shown as one block: the two switches and between them the text between them.  The tokens of
the text are read along: they have no further switches. -/
inductive Shows' (B : Nat → Node → Str → Prop) : List Token → List Event → List Shown → Prop
  | nil {ts : List Token} : (∀ x ∈ ts, isOnOff x = false) → Shows' B ts [] []
  | blank {ts : List Token} {es : List Event} {ss : List Shown} : Shows' B ts es ss → Shows' B ts (.blank :: es) (.blank :: ss)
  | block {ts : List Token} {es : List Event} {ss : List Shown} {d : Nat} {n : Node} {s : Str} :
      switchOf n = none → B d n s → Shows' B ts es ss → Shows' B ts (.block d n :: es) (.block d s :: ss)
  | on {a ts : List Token} {es : List Event} {ss : List Shown} {d : Nat} {n : Node} {t : Token} :
      switchOf n = some t → t.type = .formatOn → (∀ x ∈ a, isOnOff x = false) → Shows' B ts es ss →
      Shows' B (a ++ t :: ts) (.block d n :: es) (.block d onText :: ss)
  | region {a between ts : List Token} {mid es : List Event} {ss : List Shown} {d d' : Nat} {n m : Node} {t u : Token} :
      switchOf n = some t → t.type = .formatOff → (∀ e ∈ mid, eventSwitch e = none) →
      switchOf m = some u → u.type = .formatOn → (∀ x ∈ a, isOnOff x = false) → (∀ x ∈ between, isOnOff x = false) →
      Shows' B ts es ss →
      Shows' B (a ++ t :: between ++ u :: ts) (.block d n :: mid ++ .block d' m :: es)
        (.block d (offText ++ between.flatMap (·.spelling) ++ onText) :: ss)

/-- The blocks that are neither switches nor switched off. -/
def formattedBlocks : (off : Bool) → List Event → List Node
  | _, [] => []
  | off, .blank :: es => formattedBlocks off es
  | off, .block _ n :: es =>
    match switchOf n with
    | some t => formattedBlocks (t.type == .formatOff) es
    | none => if off then formattedBlocks off es else n :: formattedBlocks off es

end Verif.Layout
