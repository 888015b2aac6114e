import Verif.Model.Model

/-!
`to_json` and `from_dict` of `SingleTerm`, `Hamiltonian` and `Model` (`ggce/model.py:52-203, 206-244, 433-441, 549-803`),
inherited from monty's `MSONable` and used by `ggce/engine/system.py:283-293, 340-356`.

monty is not part of the repository. Its behaviour is taken from its documentation:
* `as_dict` stores, under the name of each constructor argument, the attribute of that name, or, if there is none, the
  attribute with an underscore in front; if there is neither, `NotImplementedError` (a `RuntimeError`);
* `MontyEncoder` writes a numpy array as its dtype and its data;
* `MontyDecoder` builds, from a dictionary that names a class, an object of the class by passing the decoded entries whose
  key does not begin with `@` to the constructor.

Simplifications: JSON is a tree, not a text (so a number is read back as the number written; Python prints floats so that
this holds); the entry `@version`, which is not read, is left out; the arrays `psi` and `phi` have one entry (one spatial
dimension); a value of a type that the attribute cannot hold in the model of `Verif/Model/Model.lean` is a `TypeError` where
the code has no check.
-/

namespace GGCE

/-- A JSON value. `halves n` is the number `n / 2` written as a float (an entry of a shift array)
(what `to_json` and `json.load` deal with: system.py:291-293, 355-356). -/
inductive Json (R : Type) where
  | null
  | int (n : Int)
  | num (x : R)
  | halves (n : Int)
  | str (s : String)
  | arr (l : List (Json R))
  | obj (d : List (String × Json R))

/-- A decoded Python value (system.py:356). -/
inductive PyVal (R : Type) where
  | none
  | int (n : Int)
  | num (x : R)
  | str (s : String)
  | ndarray (a : Num)
  | list (l : List (PyVal R))
  | dict (d : List (String × PyVal R))
  | term (t : SingleTerm R)
  | ham (h : Hamiltonian R)
  | model (m : Model R)

variable {R : Type} [Field R] [LinearOrder R]

/-! ### Writing -/

/-- `MSONable.as_dict`: `args` are the arguments of the constructor, `pub` the public and `priv` the private attributes
(inherited in model.py:52, 206, 547; used in system.py:291) -/
def msonDict (cls : String) (args : List String) (pub priv : String → Option (Json R)) : Py (Json R) := do
  let fields ← args.mapM fun c => match pub c with
    | some v => Except.ok (c, v)
    | none => match priv ("_" ++ c) with
      | some v => .ok (c, v)
      | none => .error Err.runtimeError
  .ok (.obj (("@module", .str "ggce.model") :: ("@class", .str cls) :: fields))

/-- `MontyEncoder` on a numpy array with one entry (for `psi` and `phi`, model.py:188-189) -/
def Num.toJson (a : Num) : Json R :=
  .obj [("@module", .str "numpy"), ("@class", .str "array"), ("dtype", .str (if a.flt then "float64" else "int64")),
    ("data", .arr [if a.flt then .halves a.tw else .int (a.tw / 2)])]

/-- the string of a dagger status (model.py:98-114) -/
def Dag.str : Dag → String
  | .plus => "+"
  | .minus => "-"

/-- `None` or an integer (model.py:790, 793) -/
def jsonOptInt : Option Int → Json R
  | none => .null
  | some n => .int n

/-- `SingleTerm.to_json`: constructor arguments (model.py:175-184), properties (64-173), private attributes (187-193) -/
def SingleTerm.toJson (t : SingleTerm R) : Py (Json R) :=
  msonDict "SingleTerm"
    ["coupling_type", "psi", "phi", "dag", "coupling", "phonon_index", "phonon_frequency"]
    (fun c => match c with
      | "psi" => some t.psi.toJson
      | "phi" => some t.phi.toJson
      | "dag" => some (.str t.dag.str)
      | "coupling" => some (.num t.coupling)
      | "phonon_index" => some (.int t.phononIndex)
      | "phonon_frequency" => some (.num t.phononFrequency)
      | _ => none)
    (fun c => match c with
      | "_coupling_type" => some (.str t.ctype)
      | "_psi" => some t.psi.toJson
      | "_phi" => some t.phi.toJson
      | "_dag" => some (.str t.dag.str)
      | "_coupling" => some (.num t.coupling)
      | "_phonon_index" => some (.int t.phononIndex)
      | "_phonon_frequency" => some (.num t.phononFrequency)
      | _ => none)

/-- `Hamiltonian.to_json`: constructor arguments (model.py:433-435), properties (217-227), private attributes (438-441);
there is no property `hopping` -/
def Hamiltonian.toJson (h : Hamiltonian R) : Py (Json R) := do
  let terms ← h.terms.mapM SingleTerm.toJson
  msonDict "Hamiltonian" ["terms", "phonon_frequencies", "dimension", "hopping"]
    (fun c => match c with
      | "terms" => some (.arr terms)
      | "phonon_frequencies" => some (.arr (h.freqs.map .num))
      | "dimension" => some (.int h.dimension)
      | _ => none)
    (fun c => match c with
      | "_terms" => some (.arr terms)
      | "_phonon_frequencies" => some (.arr (h.freqs.map .num))
      | "_dimension" => some (.int h.dimension)
      | "_hopping" => some (.num h.hopping)
      | _ => none)

/-- `Model.to_json`: constructor arguments (model.py:785-795), properties (559-721), private attributes (796-803); the
property `phonon_absolute_extent` is not the private attribute (614-630) -/
def Model.toJson (m : Model R) : Py (Json R) := do
  let ham ← m.ham.toJson
  msonDict "Model"
    ["lattice_constant", "temperature", "hamiltonian", "phonon_max_per_site", "phonon_extent", "phonon_number",
      "phonon_absolute_extent", "n_phonon_types"]
    (fun c => match c with
      | "lattice_constant" => some (.num m.latticeConstant)
      | "temperature" => some (.num m.temperature)
      | "hopping" => some (.num m.ham.hopping)
      | "hamiltonian" => some ham
      | "phonon_max_per_site" => some (jsonOptInt m.maxPerSite)
      | "phonon_extent" => some (.arr (m.extent.map .int))
      | "phonon_number" => some (.arr (m.number.map .int))
      | "phonon_absolute_extent" => some (jsonOptInt m.absExtent)
      | "n_phonon_types" => some (.int m.nTypes)
      | _ => none)
    (fun c => match c with
      | "_lattice_constant" => some (.num m.latticeConstant)
      | "_temperature" => some (.num m.temperature)
      | "_hamiltonian" => some ham
      | "_phonon_max_per_site" => some (jsonOptInt m.maxPerSite)
      | "_phonon_extent" => some (.arr (m.extent.map .int))
      | "_phonon_number" => some (.arr (m.number.map .int))
      | "_phonon_absolute_extent" => some (jsonOptInt m.absExtentOpt)
      | "_n_phonon_types" => some (.int m.nTypes)
      | _ => none)

/-! ### Reading -/

namespace PyVal

/-- a number: `isinstance(x, (int, float))` (model.py:129-131, 170-172) -/
def number (e : Err) : PyVal R → Py R
  | .num x => .ok x
  | .int n => .ok n
  | _ => .error e

/-- a non-negative integer (model.py:146-150) -/
def nat (e : Err) : PyVal R → Py Nat
  | .int n => if n < 0 then .error e else .ok n.toNat
  | _ => .error e

/-- an integer (model.py:192) -/
def toInt : PyVal R → Py Int
  | .int n => .ok n
  | _ => .error .typeError

/-- `None` or an integer (model.py:790, 793) -/
def optInt : PyVal R → Py (Option Int)
  | .none => .ok Option.none
  | .int n => .ok (some n)
  | _ => .error .typeError

/-- a string (model.py:177) -/
def string : PyVal R → Py String
  | .str s => .ok s
  | _ => .error .typeError

/-- the setters of `psi` and `phi` (model.py:75-78, 92-95): `logger.critical` unless it is a numpy array -/
def array : PyVal R → Py Num
  | .ndarray a => .ok a
  | _ => .error .abort

/-- the setter of `dag` (model.py:110-114) -/
def dag : PyVal R → Py Dag
  | .str s => if s = "+" then .ok .plus else if s = "-" then .ok .minus else .error .abort
  | _ => .error .abort

/-- a list (model.py:434, 791-792) -/
def items : PyVal R → Py (List (PyVal R))
  | .list l => .ok l
  | _ => .error .typeError

/-- a `SingleTerm` (model.py:434) -/
def toTerm : PyVal R → Py (SingleTerm R)
  | .term t => .ok t
  | _ => .error .typeError

/-- a `Hamiltonian` (model.py:789) -/
def toHam : PyVal R → Py (Hamiltonian R)
  | .ham h => .ok h
  | _ => .error .typeError

/-- a `Model` (system.py:356) -/
def toModel : PyVal R → Py (Model R)
  | .model m => .ok m
  | _ => .error .typeError

end PyVal

/-- the value passed for a keyword argument, or its default; without either a `TypeError`
(the constructors model.py:175-184, 433-435, 785-795) -/
def kwarg (kw : List (String × PyVal R)) (c : String) (default : Option (PyVal R)) : Py (PyVal R) :=
  match Dict.get? kw c with
  | some v => .ok v
  | none => match default with
    | some v => .ok v
    | none => .error .typeError

/-- a keyword that is not an argument is a `TypeError` (the constructors model.py:175-184, 433-435, 785-795) -/
def kwcheck (args : List String) (kw : List (String × PyVal R)) : Py Unit :=
  if kw.all (fun x => decide (x.1 ∈ args)) then .ok () else .error .typeError

/-- `SingleTerm(**kw)` (model.py:175-193) with the checks of the setters (64-173) -/
def SingleTerm.ofKw (kw : List (String × PyVal R)) : Py (SingleTerm R) := do
  kwcheck ["coupling_type", "psi", "phi", "dag", "coupling", "phonon_index", "phonon_frequency"] kw
  let ct ← (← kwarg kw "coupling_type" none).string
  let psi ← (← kwarg kw "psi" none).array
  let phi ← (← kwarg kw "phi" none).array
  let dag ← (← kwarg kw "dag" none).dag
  let coupling ← (← kwarg kw "coupling" none).number .abort
  let index ← (← kwarg kw "phonon_index" none).nat .abort
  let freq ← (← kwarg kw "phonon_frequency" none).number .abort
  .ok ⟨ct, psi, phi, dag, coupling, index, freq⟩

/-- `Hamiltonian(**kw)` (model.py:433-441) -/
def Hamiltonian.ofKw (kw : List (String × PyVal R)) : Py (Hamiltonian R) := do
  kwcheck ["terms", "phonon_frequencies", "dimension", "hopping"] kw
  let terms ← (← (← kwarg kw "terms" (some (.list []))).items).mapM PyVal.toTerm
  let freqs ← (← (← kwarg kw "phonon_frequencies" (some (.list []))).items).mapM (PyVal.number .typeError)
  let dimension ← (← kwarg kw "dimension" (some (.int 1))).nat .typeError
  let hopping ← (← kwarg kw "hopping" (some (.num 1))).number .typeError
  .ok ⟨terms, freqs, dimension, hopping⟩

/-- `Model(**kw)` (model.py:785-803): the values go to the private attributes -/
def Model.ofKw (kw : List (String × PyVal R)) : Py (Model R) := do
  kwcheck ["lattice_constant", "temperature", "hamiltonian", "phonon_max_per_site", "phonon_extent", "phonon_number",
    "phonon_absolute_extent", "n_phonon_types"] kw
  let lattice ← (← kwarg kw "lattice_constant" (some (.num 1))).number .typeError
  let temperature ← (← kwarg kw "temperature" (some (.num 0))).number .typeError
  let ham ← (← kwarg kw "hamiltonian" (some (.ham (.new 1 1)))).toHam
  let cap ← (← kwarg kw "phonon_max_per_site" (some .none)).optInt
  let extent ← (← (← kwarg kw "phonon_extent" (some (.list []))).items).mapM PyVal.toInt
  let number ← (← (← kwarg kw "phonon_number" (some (.list []))).items).mapM PyVal.toInt
  let abs ← (← kwarg kw "phonon_absolute_extent" (some .none)).optInt
  let n ← (← kwarg kw "n_phonon_types" (some (.int 0))).nat .typeError
  .ok ⟨lattice, temperature, ham, cap, extent, number, abs, n⟩

/-- `np.array(data, dtype)` with one entry, dtypes `int64` and `float64` (for `psi` and `phi`, model.py:188-189) -/
def decodeArray (d : List (String × Json R)) : Py (PyVal R) :=
  match Dict.get? d "dtype", Dict.get? d "data" with
  | some (.str "float64"), some (.arr [.halves n]) => .ok (.ndarray ⟨true, n⟩)
  | some (.str "float64"), some (.arr [.int n]) => .ok (.ndarray ⟨true, 2 * n⟩)
  | some (.str "int64"), some (.arr [.int n]) => .ok (.ndarray ⟨false, 2 * n⟩)
  | some (.str "int64"), some (.arr [.halves n]) => .ok (.ndarray ⟨false, 2 * (n.tdiv 2)⟩)
  | _, _ => .error .typeError

/-- the key of an entry about the class, `k.startswith("@")` (used in system.py:356) -/
def metaKey (k : String) : Bool := k.toList.head? = some '@'

/-- the string of an entry (used in system.py:356) -/
def strOf : Option (Json R) → Option String
  | some (.str s) => some s
  | _ => none

/-- an object of a class of `ggce.model`, or the dictionary itself if it does not name one (used in system.py:356) -/
def construct (cls : Option String) (kw : List (String × PyVal R)) : Py (PyVal R) :=
  if cls = some "SingleTerm" then do .ok (.term (← SingleTerm.ofKw kw))
  else if cls = some "Hamiltonian" then do .ok (.ham (← Hamiltonian.ofKw kw))
  else if cls = some "Model" then do .ok (.model (← Model.ofKw kw))
  else .ok (.dict kw)

mutual
/-- `MontyDecoder.process_decoded` (used in system.py:356) -/
def decode : Json R → Py (PyVal R)
  | .null => .ok .none
  | .int n => .ok (.int n)
  | .num x => .ok (.num x)
  | .halves n => .ok (.num ((n : R) / 2))
  | .str s => .ok (.str s)
  | .arr l => do .ok (.list (← decodeList l))
  | .obj d =>
    if strOf (Dict.get? d "@module") = some "numpy" then decodeArray d
    else if strOf (Dict.get? d "@module") = some "ggce.model" then do
      construct (strOf (Dict.get? d "@class")) (← decodeFields d)
    else do .ok (.dict (← decodeFields d))
/-- the entries of a list (used in system.py:356) -/
def decodeList : List (Json R) → Py (List (PyVal R))
  | [] => .ok []
  | j :: l => do
    let v ← decode j
    .ok (v :: (← decodeList l))
/-- the entries of a dictionary that are not about the class (used in system.py:356) -/
def decodeFields : List (String × Json R) → Py (List (String × PyVal R))
  | [] => .ok []
  | (k, j) :: d =>
    if metaKey k then decodeFields d
    else do
      let v ← decode j
      .ok ((k, v) :: (← decodeFields d))
end

/-- `SingleTerm.from_dict` (inherited in model.py:52) -/
def SingleTerm.fromDict : Json R → Py (SingleTerm R)
  | .obj d => do SingleTerm.ofKw (← decodeFields d)
  | _ => .error .attributeError

/-- `Hamiltonian.from_dict` (inherited in model.py:206) -/
def Hamiltonian.fromDict : Json R → Py (Hamiltonian R)
  | .obj d => do Hamiltonian.ofKw (← decodeFields d)
  | _ => .error .attributeError

/-- `Model.from_dict` (system.py:355-356) -/
def Model.fromDict : Json R → Py (Model R)
  | .obj d => do Model.ofKw (← decodeFields d)
  | _ => .error .attributeError

end GGCE
