import Verif.Model.Json
import Verif.Proofs.Disk

/-!
Reading back what `to_json` writes.
-/

set_option linter.unusedSectionVars false

namespace GGCE

variable {R : Type} [Field R] [LinearOrder R]

/-- an integer array holds integers -/
def Num.Fits (a : Num) : Prop := a.flt = false → a.tw % 2 = 0

theorem bind_ok {α β : Type} (a : α) (f : α → Py β) : ((Except.ok a : Py α) >>= f) = f a := rfl

theorem decode_num (a : Num) (h : a.Fits) : decode (a.toJson : Json R) = .ok (.ndarray a) := by
  obtain ⟨flt, tw⟩ := a
  unfold Num.toJson
  rw [decode]
  cases flt with
  | true => simp [Dict.get?, decodeArray, strOf]
  | false =>
    have := h rfl
    simp only at this
    simp [Dict.get?, decodeArray, strOf]
    omega

/-- the tree of a term -/
def SingleTerm.tree (t : SingleTerm R) : Json R :=
  .obj [("@module", .str "ggce.model"), ("@class", .str "SingleTerm"), ("coupling_type", .str t.ctype),
    ("psi", t.psi.toJson), ("phi", t.phi.toJson), ("dag", .str t.dag.str), ("coupling", .num t.coupling),
    ("phonon_index", .int t.phononIndex), ("phonon_frequency", .num t.phononFrequency)]

theorem toJson_term (t : SingleTerm R) : t.toJson = .ok t.tree := rfl

theorem dag_str (d : Dag) : (PyVal.str d.str : PyVal R).dag = .ok d := by
  cases d <;> rfl

theorem nat_int (n : Nat) (e : Err) : (PyVal.int (n : Int) : PyVal R).nat e = .ok n := by
  show (if (n : Int) < 0 then Except.error e else Except.ok (n : Int).toNat) = _
  rw [if_neg (by omega)]
  rfl

theorem ofKw_term (t : SingleTerm R) : SingleTerm.ofKw [("coupling_type", .str t.ctype), ("psi", .ndarray t.psi),
    ("phi", .ndarray t.phi), ("dag", .str t.dag.str), ("coupling", .num t.coupling), ("phonon_index", .int t.phononIndex),
    ("phonon_frequency", .num t.phononFrequency)] = .ok t := by
  simp [SingleTerm.ofKw, kwcheck, kwarg, Dict.get?, bind_ok, PyVal.string, PyVal.array, dag_str, PyVal.number, nat_int]

theorem decodeFields_term (t : SingleTerm R) (h1 : t.psi.Fits) (h2 : t.phi.Fits) (d : List (String × Json R)) (h : t.tree = .obj d) :
    decodeFields d = .ok [("coupling_type", .str t.ctype), ("psi", .ndarray t.psi),
    ("phi", .ndarray t.phi), ("dag", .str t.dag.str), ("coupling", .num t.coupling), ("phonon_index", .int t.phononIndex),
    ("phonon_frequency", .num t.phononFrequency)] := by
  injection h with h
  subst h
  simp [decodeFields, metaKey, decode, decode_num _ h1, decode_num _ h2, bind_ok]

theorem decode_term (t : SingleTerm R) (h1 : t.psi.Fits) (h2 : t.phi.Fits) : decode t.tree = .ok (.term t) := by
  have e := decodeFields_term t h1 h2 _ rfl
  unfold SingleTerm.tree
  rw [decode]
  simp only [Dict.get?, if_true, String.reduceEq, if_false, strOf, Option.some.injEq]
  rw [e, bind_ok]
  simp only [construct, Option.some.injEq, String.reduceEq, if_true, if_false, ofKw_term, bind_ok]

/-- every shift of the Hamiltonian fits its array -/
def Hamiltonian.Fits (h : Hamiltonian R) : Prop := ∀ t ∈ h.terms, t.psi.Fits ∧ t.phi.Fits

theorem decode_terms : ∀ (ts : List (SingleTerm R)), (∀ t ∈ ts, t.psi.Fits ∧ t.phi.Fits) →
    decodeList (ts.map SingleTerm.tree) = .ok (ts.map .term)
  | [], _ => by simp [decodeList]
  | t :: ts, h => by
    have h0 := h t (by simp)
    simp [decodeList, decode_term t h0.1 h0.2, bind_ok, decode_terms ts (fun t ht => h t (by simp [ht]))]

theorem decode_nums : ∀ (xs : List R), decodeList (xs.map .num) = .ok (xs.map .num)
  | [] => by simp [decodeList]
  | x :: xs => by simp [decodeList, decode, bind_ok, decode_nums xs]

theorem decode_ints : ∀ (xs : List Int), decodeList (xs.map .int : List (Json R)) = .ok (xs.map .int)
  | [] => by simp [decodeList]
  | x :: xs => by simp [decodeList, decode, bind_ok, decode_ints xs]

theorem decode_optInt (x : Option Int) : ∃ v : PyVal R, decode (jsonOptInt x : Json R) = .ok v ∧ v.optInt = .ok x := by
  cases x with
  | none => exact ⟨.none, by simp [jsonOptInt, decode], rfl⟩
  | some n => exact ⟨.int n, by simp [jsonOptInt, decode], rfl⟩

theorem mapM_map {α β : Type} (f : α → β) (g : β → Py α) (h : ∀ a, g (f a) = .ok a) :
    ∀ l : List α, (l.map f).mapM g = .ok l
  | [] => rfl
  | a :: l => by
    rw [List.map_cons, List.mapM_cons, h, bind_ok, mapM_map f g h l]
    rfl

/-- the tree of a Hamiltonian -/
def Hamiltonian.tree (h : Hamiltonian R) : Json R :=
  .obj [("@module", .str "ggce.model"), ("@class", .str "Hamiltonian"), ("terms", .arr (h.terms.map SingleTerm.tree)),
    ("phonon_frequencies", .arr (h.freqs.map .num)), ("dimension", .int h.dimension), ("hopping", .num h.hopping)]

theorem mapM_toJson : ∀ (ts : List (SingleTerm R)), ts.mapM SingleTerm.toJson = .ok (ts.map SingleTerm.tree)
  | [] => rfl
  | t :: ts => by
    rw [List.mapM_cons, toJson_term, bind_ok, mapM_toJson ts]
    rfl

theorem toJson_ham (h : Hamiltonian R) : h.toJson = .ok h.tree := by
  unfold Hamiltonian.toJson
  rw [mapM_toJson]
  rfl

theorem ofKw_ham (h : Hamiltonian R) : Hamiltonian.ofKw [("terms", .list (h.terms.map .term)),
    ("phonon_frequencies", .list (h.freqs.map .num)), ("dimension", .int h.dimension), ("hopping", .num h.hopping)] =
      .ok h := by
  have e1 : (h.terms.map .term : List (PyVal R)).mapM PyVal.toTerm = .ok h.terms := mapM_map .term PyVal.toTerm (fun _ => rfl) _
  have e2 : (h.freqs.map .num : List (PyVal R)).mapM (PyVal.number .typeError) = .ok h.freqs :=
    mapM_map .num (PyVal.number .typeError) (fun _ => rfl) _
  simp [Hamiltonian.ofKw, kwcheck, kwarg, Dict.get?, bind_ok, PyVal.items, PyVal.number, nat_int, e1, e2]

theorem decodeFields_ham (h : Hamiltonian R) (hf : h.Fits) (d : List (String × Json R)) (hd : h.tree = .obj d) :
    decodeFields d = .ok [("terms", .list (h.terms.map .term)), ("phonon_frequencies", .list (h.freqs.map .num)),
      ("dimension", .int h.dimension), ("hopping", .num h.hopping)] := by
  injection hd with hd
  subst hd
  simp [decodeFields, metaKey, decode, decode_terms _ hf, decode_nums, bind_ok]

theorem decode_ham (h : Hamiltonian R) (hf : h.Fits) : decode h.tree = .ok (.ham h) := by
  have e := decodeFields_ham h hf _ rfl
  unfold Hamiltonian.tree
  rw [decode, e]
  simp [Dict.get?, strOf, construct, ofKw_ham, bind_ok]

/-- the tree of a model -/
def Model.tree (m : Model R) : Json R :=
  .obj [("@module", .str "ggce.model"), ("@class", .str "Model"), ("lattice_constant", .num m.latticeConstant),
    ("temperature", .num m.temperature), ("hamiltonian", m.ham.tree), ("phonon_max_per_site", jsonOptInt m.maxPerSite),
    ("phonon_extent", .arr (m.extent.map .int)), ("phonon_number", .arr (m.number.map .int)),
    ("phonon_absolute_extent", jsonOptInt m.absExtent), ("n_phonon_types", .int m.nTypes)]

theorem toJson_model (m : Model R) : m.toJson = .ok m.tree := by
  unfold Model.toJson
  rw [toJson_ham]
  rfl

theorem fromDict_tree (m : Model R) (hf : m.ham.Fits) : Model.fromDict m.tree = .ok m.jsonRT := by
  obtain ⟨v1, e1, f1⟩ := decode_optInt (R := R) m.maxPerSite
  obtain ⟨v2, e2, f2⟩ := decode_optInt (R := R) m.absExtent
  have e3 : (m.extent.map .int : List (PyVal R)).mapM PyVal.toInt = .ok m.extent := mapM_map .int PyVal.toInt (fun _ => rfl) _
  have e4 : (m.number.map .int : List (PyVal R)).mapM PyVal.toInt = .ok m.number := mapM_map .int PyVal.toInt (fun _ => rfl) _
  have e5 : decodeFields [("@module", .str "ggce.model"), ("@class", .str "Model"), ("lattice_constant", .num m.latticeConstant),
      ("temperature", .num m.temperature), ("hamiltonian", m.ham.tree), ("phonon_max_per_site", jsonOptInt m.maxPerSite),
      ("phonon_extent", .arr (m.extent.map .int)), ("phonon_number", .arr (m.number.map .int)),
      ("phonon_absolute_extent", jsonOptInt m.absExtent), ("n_phonon_types", .int m.nTypes)] =
    .ok [("lattice_constant", .num m.latticeConstant), ("temperature", .num m.temperature), ("hamiltonian", .ham m.ham),
      ("phonon_max_per_site", v1), ("phonon_extent", .list (m.extent.map .int)), ("phonon_number", .list (m.number.map .int)),
      ("phonon_absolute_extent", v2), ("n_phonon_types", .int m.nTypes)] := by
    simp [decodeFields, metaKey, decode, decode_ham _ hf, decode_ints, e1, e2, bind_ok]
  unfold Model.tree Model.fromDict
  simp only [e5, bind_ok]
  simp [Model.ofKw, kwcheck, kwarg, Dict.get?, bind_ok, PyVal.items, PyVal.number, PyVal.toHam, nat_int, e3, e4, f1, f2,
    Model.jsonRT]

end GGCE
