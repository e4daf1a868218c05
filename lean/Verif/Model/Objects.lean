import Verif.Model.Py

/-!
# Model of named tuples and of methods that are added to classes

`collect` and `method` of `gpcm/util.py`, what can be saved to a file, and how the classes of models find their methods. Simplified: which
strings are identifiers and which are keywords is an arbitrary predicate; a class is known by a number, and by the module and the name under
which it can be looked up.
-/

namespace Gpcm.Objects

/-- What is computed: arrays and other plain data, tuples, and named tuples of a class that has a module, a name, and field names. -/
inductive PyObj (α : Type)
  | data (a : α)
  | tuple (l : List (PyObj α))
  | named (cls : ℕ) (mod name : String) (fields : List String) (vals : List (PyObj α))

/-- What the interpreter knows: the classes that can be looked up in a module by a name, and how many classes there are. -/
structure Interp where
  lookup : String → String → Option ℕ
  next : ℕ

/-- The classes that can be looked up exist. -/
def Interp.Valid (s : Interp) : Prop := ∀ m n c, s.lookup m n = some c → c < s.next

/-- `namedtuple(name, fields)` accepts its arguments: all are identifiers and no keywords, no field starts with an underscore, and no field occurs
twice. -/
def namedtupleOk (ident keyword : String → Bool) (name : String) (fields : List String) : Bool :=
  (name :: fields).all (fun n => ident n && !keyword n) && fields.all (fun n => n.toList.head? != some '_') && decide fields.Nodup

/-- `collect(name, **kw_args)` (util.py:159-170): a new class with the keywords as fields, and an instance of it. -/
def collect {α : Type} (ident keyword : String → Bool) (s : Interp) (name : String) (kw : List (String × PyObj α)) :
    Except PyErr (Interp × PyObj α) :=
  if namedtupleOk ident keyword name (kw.map Prod.fst) then
    .ok ({ s with next := s.next + 1 }, .named s.next "gpcm.util" name (kw.map Prod.fst) (kw.map Prod.snd))
  else .error .valueError

/-- `getattr(obj, field)` for named tuples; other objects have no fields. -/
def PyObj.getattr {α : Type} (o : PyObj α) (field : String) : Except PyErr (PyObj α) :=
  match o with
  | .named _ _ _ fields vals =>
    match (fields.zip vals).find? (fun p => p.1 == field) with
    | some p => .ok p.2
    | none => .error .attributeError
  | _ => .error .attributeError

/-- `list(obj)` for tuples and named tuples. -/
def PyObj.items {α : Type} : PyObj α → Option (List (PyObj α))
  | .data _ => none
  | .tuple l => some l
  | .named _ _ _ _ vals => some vals

mutual
/-- Whether `pickle.dump` succeeds: the class of a named tuple is saved by its module and its name, so looking these up has to give it. -/
def picklable {α : Type} (s : Interp) : PyObj α → Bool
  | .data _ => true
  | .tuple l => picklableAll s l
  | .named c m n _ vals => decide (s.lookup m n = some c) && picklableAll s vals
/-- `picklable` for all elements. -/
def picklableAll {α : Type} (s : Interp) : List (PyObj α) → Bool
  | [] => true
  | o :: l => picklable s o && picklableAll s l
end

/-- The keywords of `summarise_samples` (util.py:66-78). -/
def summaryFields : List String :=
  ["x", "mean", "var", "err_68_lower", "err_68_upper", "err_95_lower", "err_95_upper", "err_99_lower", "err_99_upper", "samples", "all_samples"]

/-- A plain tuple of fields of a prediction, as the scripts save it (comparison.py:95, vix_analyse.py:66-74, paper/smk.py:42-44). -/
def extract {α : Type} (o : PyObj α) (fields : List String) : Except PyErr (PyObj α) :=
  match mapE o.getattr fields with
  | .ok l => .ok (.tuple l)
  | .error e => .error e

/-- Classes: which classes an attribute is looked for in, in which order, and the attributes of every class. -/
structure Classes (F : Type) where
  mro : String → List String
  attrs : String → String → Option F

/-- `getattr` for a class or an instance without own attribute of that name. -/
def Classes.getattr {F : Type} (C : Classes F) (cls name : String) : Except PyErr F :=
  match (C.mro cls).findSome? fun c => C.attrs c name with
  | some f => .ok f
  | none => .error .attributeError

/-- `method(cls)(f)` (util.py:214-225), where `f.__name__` is `name`. -/
def method {F : Type} (C : Classes F) (cls : String) (name : String) (f : F) : Classes F :=
  { C with attrs := fun c n => if c = cls ∧ n = name then some f else C.attrs c n }

/-- The methods of gpcm.py:305-484 and rgpcm.py:222-598. -/
def computeNames : List String := ["compute_K_u", "compute_K_z", "compute_i_hx", "compute_I_ux", "compute_I_hz", "compute_I_uz"]

/-- The bases of the models (model.py:25, gpcm.py:42, 291, rgpcm.py:14). -/
def gpcmMro : String → List String
  | "CGPCM" => ["CGPCM", "GPCM", "AbstractGPCM", "Model"]
  | "GPCM" => ["GPCM", "AbstractGPCM", "Model"]
  | "RGPCM" => ["RGPCM", "AbstractGPCM", "Model"]
  | "AbstractGPCM" => ["AbstractGPCM", "Model"]
  | c => [c]

/-- Importing gpcm.py and rgpcm.py: the methods are added to their classes. A function is known by its module and its name. -/
def importModels (C : Classes (String × String)) : Classes (String × String) :=
  computeNames.foldl (fun C n => method C "RGPCM" n ("rgpcm", n)) (computeNames.foldl (fun C n => method C "GPCM" n ("gpcm", n)) C)

end Gpcm.Objects
