import Verif.Model.ConfigND
import Verif.Model.Json

/-!
`as_dict`, `to_json` and `from_dict` of `Config`, and `from_dict` of the terms (`ggce/engine/terms.py:153, 264-282, 485,
659-679`), inherited from monty's `MSONable` as described in `Verif/Model/Json.lean`.
-/

namespace GGCE

variable {R : Type}

/-- `array.tolist()` of the entries of one phonon type, for `to_json` (terms.py:158-169): nested lists -/
def nest : {d : Nat} → (Fin d → Nat) → ((Fin d → Nat) → Int) → Json R
  | 0, _, f => .int (f (fun j => j.elim0))
  | _ + 1, s, f => .arr ((List.range (s 0)).map (fun p => nest (fun j => s j.succ) (fun i => f (Fin.cons p i))))

/-- `array.tolist()` for `to_json` (terms.py:158-169) -/
def NArr.tolist {d : Nat} (a : NArr d) : Json R :=
  .arr ((List.range a.types).map (fun t => nest a.shape (a.val t)))

/-- `Config.to_json` (terms.py:153, 264): the arguments of the constructor are the property `config` (158-169) and the
private attributes `_max_modifications` and `_modifications` (280-281) -/
def NConfig.toJson {d : Nat} (c : NConfig d) : Json R :=
  .obj [("@module", .str "ggce.engine.terms"), ("@class", .str "Config"),
    ("config", .obj [("@module", .str "numpy"), ("@class", .str "array"), ("dtype", .str "int64"), ("data", c.arr.tolist)]),
    ("max_modifications", .int c.maxMods), ("modifications", .int c.mods)]

mutual
/-- the shape of `np.array(data)` for nested lists of integers; `none` if the lists do not have equal lengths, or hold
something else (terms.py:279) -/
def npShape : Json R → Option (List Nat)
  | .int _ => some []
  | .arr l => npShapeList l
  | _ => none
/-- the shape of an array with the given slices (terms.py:279) -/
def npShapeList : List (Json R) → Option (List Nat)
  | [] => some [0]
  | j :: l =>
    if l.isEmpty then (npShape j).map (1 :: ·)
    else
      match npShape j, npShapeList l with
      | some s, some (n :: s') => if s = s' then some ((n + 1) :: s) else none
      | _, _ => none
end

/-- an entry of `np.array(data)` (terms.py:279) -/
def npEntry : Json R → List Nat → Int
  | .int n, _ => n
  | .arr l, i :: is =>
    match l[i]? with
    | some j => npEntry j is
    | none => 0
  | _, _ => 0
termination_by _ i => i.length

/-- `np.array(data).astype(int)` for nested lists (terms.py:279); an array without axes is `none` in the second component -/
def npArray (j : Json R) : Py (Option (Sigma NArr)) :=
  match npShape j with
  | none => .error .valueError
  | some [] => .ok none
  | some (n :: s) => .ok (some ⟨s.length, ⟨n, s.get, fun t i => npEntry j (t :: List.ofFn i)⟩⟩)

/-- a decoded value for the argument `config` (terms.py:264, 661): an array, or an object `Config` -/
inductive ConfigVal where
  | array (a : Option (Sigma NArr))
  | config (c : Sigma NConfig)

/-- `Config.__init__` with a decoded value (terms.py:279-282). An object `Config` is not a number: `astype(int)` of it is a
`TypeError`. Fewer than two axes end the program (terms.py:11-14, 29-31). -/
def ConfigVal.new (maxMods mods : Nat) : ConfigVal → Py (Sigma NConfig)
  | .config _ => .error .typeError
  | .array none => .error .abort
  | .array (some ⟨d, a⟩) => do
    let c ← NConfig.new a maxMods mods
    .ok ⟨d, c⟩

/-- a keyword argument with a natural number; other numbers are left out (`TypeError`) (terms.py:264) -/
def natArg (d : List (String × Json R)) (k : String) (default : Nat) : Py Nat :=
  match Dict.get? d k with
  | none => .ok default
  | some (.int n) => if n < 0 then .error .typeError else .ok n.toNat
  | some _ => .error .typeError

/-- the data of a numpy array written by `MontyEncoder`, or a plain list (terms.py:279) -/
def arrayData : Json R → Option (Json R)
  | .obj d => if strOf (Dict.get? d "@module") = some "numpy" then Dict.get? d "data" else none
  | .arr l => some (.arr l)
  | _ => none

/-- `Config.from_dict` (terms.py:153, 264-282) -/
def configFromDict : Json R → Py (Sigma NConfig)
  | .obj d =>
    if ¬ d.all (fun x => metaKey x.1 || x.1 ∈ ["config", "max_modifications", "modifications"]) then .error .typeError
    else
      match Dict.get? d "config" with
      | none => .error .typeError
      | some j =>
        match arrayData j with
        | none => .error .typeError
        | some data => do
          let a ← npArray data
          let m ← natArg d "max_modifications" 1
          let n ← natArg d "modifications" 0
          (ConfigVal.array a).new m n
  | _ => .error .attributeError

/-- `MontyDecoder` on the entry `config` of a term (terms.py:659-661): an array, or an object `Config`. Other classes are left
out. -/
def decodeConfig (j : Json R) : Py ConfigVal :=
  match arrayData j with
  | some data => do .ok (.array (← npArray data))
  | none => do .ok (.config (← configFromDict j))

/-- `from_dict` of `Term`, `IndexTerm`, `EOMTerm`, `AnnihilationTerm` and `CreationTerm` (terms.py:485, 659-669, 793-807,
837-843, 879-881): the configuration of the term. The other arguments, and the exceptions that they may cause, are left
out. -/
def termFromDict : Json R → Py (Sigma NConfig)
  | .obj d =>
    match Dict.get? d "config" with
    | none => .error .typeError
    | some j => do (← decodeConfig j).new 1 0
  | _ => .error .attributeError

/-- `to_json` of a term (terms.py:485, 491-502): the property `config` is an object `Config`. `cls` is the class and
`rest` the other entries. -/
def termToJson {d : Nat} (cls : String) (c : NConfig d) (rest : List (String × Json R)) : Json R :=
  .obj (("@module", .str "ggce.engine.terms") :: ("@class", .str cls) :: ("config", c.toJson) :: rest)

/-- `Config.as_dict` holds the array of the configuration itself, not a copy (terms.py:158-169). This is what a dictionary
made before `add_phonon_` (terms.py:402-482) holds after it, as a configuration: inside the cloud the array is changed in
place (451), otherwise `np.pad` makes a new one (477). -/
def dictAfterAdd {d : Nat} (c : NConfig d) (idx : List Int) : NConfig d :=
  if ∀ j : Fin d, 0 ≤ NConfig.spatial (d := d) idx j ∧ NConfig.spatial (d := d) idx j < c.arr.shape j then
    { c with arr := c.arr.bump (idx.headD 0).toNat (fun j => (NConfig.spatial (d := d) idx j).toNat) 1 }
  else c

end GGCE
