import Verif.Spec.Marshal

/-!
# Empty values in any memory

`GV.IsEmpty` asks for a value with no cycle anywhere in it.  Here only what a struct writes is looked at, so that a struct may
hang on to a cycle with a field that is not written, and nothing is said about how the value is reached.
-/

namespace Jsonutils

/-- Empty, for a field with options `info`: nil and the undefined tristate always; false, zero, the empty text or container
only if the tag says so; a struct that has nothing to write, if the tag says so; an interface or pointer as what is in it. -/
inductive GV.Blank (h : List GV) : GV → Option FInfo → Prop
  | leaf {l info} : l.Empty info → GV.Blank h (.leaf l) info
  | seq {info} : Asks info (·.omitEmpty) = true → GV.Blank h (.seq []) info
  | map {info} : Asks info (·.omitEmpty) = true → GV.Blank h (.map []) info
  | struct {fs info} : Asks info (·.omitEmpty) = true → (∀ i x, (i, x) ∈ fs → i.Proper → GV.Blank h x (some i)) → GV.Blank h (.struct fs) info
  | iface {x info} : GV.Blank h x info → GV.Blank h (.iface x) info
  | ptr {a x info} : h[a]? = some x → GV.Blank h x info → GV.Blank h (.ptr a) info
  | shared {a x info} : h[a]? = some x → GV.Blank h x info → GV.Blank h (.shared a) info

/-- What is left of a list when the values that are empty in it are taken out. -/
inductive GV.Kept (h : List GV) : List GV → List GV → Prop
  | nil : GV.Kept h [] []
  | keep {x xs ys} : ¬ x.Blank h none → GV.Kept h xs ys → GV.Kept h (x :: xs) (x :: ys)
  | drop {x xs ys} : x.Blank h none → GV.Kept h xs ys → GV.Kept h (x :: xs) ys

end Jsonutils
