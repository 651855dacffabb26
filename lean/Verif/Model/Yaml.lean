import Verif.Model.Parse
import Verif.Model.Print

/-!
# YAML: yamlutils.go

The conversions are those of github.com/ghodss/yaml, an external library: they are parameters here (`none` = an error).
-/

namespace Jsonutils

/-- `yaml.YAMLToJSON` and `yaml.JSONToYAML`. -/
structure YamlLib where
  toJson : Bytes → Option Bytes
  toYaml : Bytes → Option Bytes

/-- yamlutils.go:19-25 `ParseYAML(str)`; `none` = the error of the library. -/
def parseYAML (L : YamlLib) (str : Bytes) : Option ParseOut := (L.toJson str).map parse

/-- yamlutils.go:27-58 `YAMLString()`: the error of the library is ignored, its result is then nil. -/
def J.yamlString (L : YamlLib) (v : J) : Bytes := (L.toYaml v.toBytes).getD []

end Jsonutils
