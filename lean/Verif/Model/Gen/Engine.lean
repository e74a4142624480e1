import Verif.Model.Gen.Python
import Verif.Model.Gen.Grammar
import Verif.Model.Inspector

/-!
# Model of `generator/engine.py` as it is used by `inspector.py` and `flatdata_writer.py`
-/

namespace Gen

/-- engine.py:98-101: the only element of a list; anything else is an error. -/
def onlyOne : List Tree → M Tree
  | [] => throw .runtimeError
  | [n] => pure n
  | _ => throw .runtimeError

/-- engine.py:94-97: the condition on a child of the root. -/
def isRootNamespace (c : Tree) : Bool := c.kind = .namespace ∧ ¬ "builtin".toList <:+: c.name

/-- engine.py:91-102 `_find_root_namespace`: the child of the root that is a namespace and has no `builtin` in its name. -/
def findRootNamespace (root : Tree) : M Tree :=
  onlyOne (root.children.filter isRootNamespace)

/-- engine.py:64-81 `Engine(source).render_python_module(archive_name=name)` returns a module, and the class `c` with it: the source is
compiled, the module is written and executed, and the name of the root namespace, an underscore and `name` is looked up
in it. For an empty name there is no class (line 80). In all other cases an exception is raised, or `None` is returned. -/
def Renders (source name : Text) (c : PyVal) : Prop :=
  name ≠ [] ∧ ∃ t root stmts env, Compile source (.ok t) ∧ findRootNamespace t = .ok root ∧ PyModule t (.ok stmts) ∧
    execModule [] stmts = some env ∧ env.lookup (root.name ++ "_".toList ++ name) = some c

/-- The parameter `engine` of the model of `inspector.py` behaves like the engine. Simplification: a class that is not that of an
archive (a signature file with the name of a structure) counts as an error; there the inspector would call the constructor
of the structure. -/
def IsEngine (engine : Model.EngineFn) : Prop :=
  ∀ (source : String) (name : Text) (A : Model.ArchiveType), engine source name = .ok A ↔ Renders source.toList name (.archive A)

/-- flatdata_writer.py:21-38 `Writer(archive_schema, path, archive_name)` is created, with a builder of the class `A`. -/
def WriterFor (source name : Text) (A : Model.ArchiveType) : Prop :=
  if name = [] then ∃ found, Model.getArchiveName source = .ok found ∧ Renders source (found ++ "Builder".toList) (.builder A)
  else Renders source (name ++ "Builder".toList) (.builder A)

end Gen
