import Verif.Model.Yaml
import Verif.Props.Parse

/-!
# C75: YAML

`parseYAML L s` is `ParseYAML(s)`, `v.yamlString L` is `v.YAMLString()`, for a YAML library `L`.
-/

namespace Jsonutils.Props
open Rfc

/-- What is asked of the library, about one JSON text and its meaning: it can be turned into YAML, and that YAML back into some JSON
text (other white space, other escapes, other order of members, ...) of the same meaning. -/
def YamlLib.Keeps (L : YamlLib) (text : Bytes) (v : J) : Prop :=
  ∃ y, L.toYaml text = some y ∧ ∃ w t w', L.toJson y = some (wsText w ++ Tree.text t ++ wsText w') ∧ t.Ok ∧ t.val = v

/-- **C75.** If the library keeps the meaning of the text of `v`, then `ParseYAML(v.YAMLString())` returns `v` (floats as their text is
read, C01; exactly `v` if there are none).  The text given to the library is always a valid JSON text of that meaning. -/
theorem C75_yaml_round_trip (L : YamlLib) (v : J) (hw : v.WF) (hp : v.Plain) (hl : YamlLib.Keeps L v.toBytes v.reread) :
    parseYAML L (v.yamlString L) = some (.ok v.reread) ∧ (v.Wide → J.Same v v.reread) ∧ (v.NoFloat → v.reread = v) := by
  obtain ⟨y, h1, w, t, w', h2, h3, h4⟩ := hl
  refine ⟨?_, (C01_round_trip v hw hp).2⟩
  unfold parseYAML J.yamlString
  rw [h1]
  simp only [Option.getD_some, h2, Option.map_some]
  rw [(C04_rfc8259_accepted w t w' h3).2, h4]

/-- **C75, reading.** `ParseYAML` returns the document denoted by the JSON text the library makes of the YAML text, and fails if the
library fails. -/
theorem C75_parse_yaml (L : YamlLib) (s : Bytes) :
    (L.toJson s = none → parseYAML L s = none) ∧
    ∀ w t w', L.toJson s = some (wsText w ++ Tree.text t ++ wsText w') → t.Ok → parseYAML L s = some (.ok t.val) := by
  refine ⟨fun h => by simp [parseYAML, h], fun w t w' h ht => ?_⟩
  simp only [parseYAML, h, Option.map_some, (C04_rfc8259_accepted w t w' ht).2]

/-- **C75, writing.** The library is always given a valid JSON text (documents without references, NaN and infinities), so that an
error can come from the library's own limits only; `YAMLString` does not report it and returns the empty text. -/
theorem C75_yaml_string (L : YamlLib) (v : J) (hw : v.WF) (hp : v.NoPtr) (hf : v.FiniteFloats) :
    IsJsonText v.toBytes ∧ (L.toYaml v.toBytes = none → v.yamlString L = []) :=
  ⟨C03_valid_rfc8259 v hw hp hf, fun h => by simp [J.yamlString, h]⟩

/-- A library that meets the requirement for the document `["a"]`: it writes `- a` and reads that as `[ "a"]`. -/
def toyYaml : YamlLib :=
  ⟨fun s => if s = b!"- a" then some b!"[ \"a\"]" else none, fun s => if s = b!"[\"a\"]" then some b!"- a" else none⟩

example : parseYAML toyYaml ((J.arr [.str b!"a"]).yamlString toyYaml) = some (.ok (.arr [.str b!"a"])) := by
  refine (C75_yaml_round_trip toyYaml (.arr [.str b!"a"]) ⟨trivial, trivial⟩ ⟨trivial, trivial⟩
    ⟨_, rfl, [], .arr (.one [.space] (.str [.raw 97 (by decide) (by decide) (by decide)]) []), [], rfl, ?_, rfl⟩).1
  intro i hi; simp at hi; subst hi; trivial

end Jsonutils.Props
