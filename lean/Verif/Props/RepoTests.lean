import Verif.Props.Config
import Verif.Props.ConfigND
import Verif.Props.Disk

/-!
The repository's own tests (ggce/_tests), evaluated on the model. These are checks that the model
behaves like the code on inputs whose answers the authors wrote down; they prove no property.
Tests on random arrays are covered by the theorems C03, C04, C62.
-/

namespace GGCE.Props

/-! ### test_engine_terms.py -/

/-- `test_remove_phonon_shift_1d_right` -/
example : (Config.mk ⟨[[1, 2, 3, 0, 0, 0, 1], [4, 5, 6, 0, 0, 0, 0]], 7⟩ 1 0).removePhonon 0 6 =
    .ok (⟨⟨[[1, 2, 3], [4, 5, 6]], 3⟩, 1, 1⟩, 0) := by decide

/-- `test_remove_phonon_shift_1d_left` -/
example : (Config.mk ⟨[[0, 0, 0, 0, 1, 2, 3], [1, 0, 0, 0, 4, 5, 6]], 7⟩ 1 0).removePhonon 1 0 =
    .ok (⟨⟨[[1, 2, 3], [4, 5, 6]], 3⟩, 1, 1⟩, 4) := by decide

/-- `test_add_phonon_Shift_1d_right` -/
example : (Config.mk ⟨[[1, 2, 3], [4, 5, 6]], 3⟩ 1 0).addPhonon 0 6 =
    .ok (⟨⟨[[1, 2, 3, 0, 0, 0, 1], [4, 5, 6, 0, 0, 0, 0]], 7⟩, 1, 1⟩, 0) := by decide

/-- `test_add_phonon_Shift_1d_left` -/
example : (Config.mk ⟨[[1, 2, 3], [4, 5, 6]], 3⟩ 1 0).addPhonon 1 (-4) =
    .ok (⟨⟨[[0, 0, 0, 0, 1, 2, 3], [1, 0, 0, 0, 4, 5, 6]], 7⟩, 1, 1⟩, 4) := by decide

/-- `test_add_phonon_max_modifications`, on one array -/
example : runOps [.add 0 1, .add 1 2] ⟨⟨[[1, 2, 1, 1], [3, 2, 2, 3]], 4⟩, 1, 0⟩ =
    .error .abort := by decide

/-- `test_remove_phonon_max_modifications`, on one array -/
example : runOps [.remove 0 1, .remove 1 2] ⟨⟨[[1, 2, 1, 1], [3, 2, 2, 3]], 4⟩, 1, 0⟩ =
    .error .abort := by decide

/-- `test_validate_critical_config_edges_1d_left` and `_right`, on one array -/
example : Config.new ⟨[[0, 2, 1], [0, 2, 2]], 3⟩ = .error .abort ∧
    Config.new ⟨[[1, 2, 0], [1, 2, 0]], 3⟩ = .error .abort ∧
    Config.new ⟨[[1, 2, 1], [1, 2, 2]], 3⟩ = .ok ⟨⟨[[1, 2, 1], [1, 2, 2]], 3⟩, 1, 0⟩ := by decide

/-! ### test_engine_system.py -/

/-- `test_config_space_gen` -/
example : (configSpaceGen 2 2).toFinset = {[2, 0], [1, 1], [0, 2]} ∧
    (configSpaceGen 2 3).toFinset = {[3, 0], [0, 3], [1, 2], [2, 1]} ∧
    (configSpaceGen 3 2).toFinset =
      {[2, 0, 0], [0, 2, 0], [0, 0, 2], [1, 1, 0], [1, 0, 1], [0, 1, 1]} := by decide

/-! ### test_model.py -/

/-- number of terms after `Hamiltonian().add_(coupling_type, phonon_index, 1.0, 1.0, None, 1.0)` -/
def termCount (ct : String) (idx : Int) (g lam : Option ℚ) : Py Nat :=
  ((Hamiltonian.new (R := ℚ) 1 1).add exPrimsQ ct idx 1 g lam 1).map (fun H => H.terms.length)

/-- `TestHamiltonian.test_add_` -/
example : ∀ i ∈ ([0, 1, 2] : List Int), termCount "Holstein" i (some 1) none = .ok 2 ∧
    termCount "EdwardsFermionBoson" i (some 1) none = .ok 4 ∧
    termCount "BondPeierls" i (some 1) none = .ok 4 ∧
    termCount "Peierls" i (some 1) none = .ok 8 := by decide +kernel

/-- `TestHamiltonian.test_add_` with index -1: `SystemExit` -/
example : ∀ ct ∈ ["Holstein", "Peierls", "EdwardsFermionBoson", "BondPeierls"],
    termCount ct (-1) (some 1) none = .error .abort := by decide +kernel

/-- `test_invalid_coupling_add` -/
example : termCount "InvalidCoupling" 0 (some 1) none = .ok 0 := by decide +kernel

/-- `test_XOR_add_` -/
example : termCount "Holstein" 0 (some 1) (some 1) = .error .valueError ∧
    termCount "Holstein" 0 none none = .error .valueError := by decide +kernel

/-- `test_finite_T_no_M_no_N_1`, `_2`, `_3`: the model stays empty -/
example : ∀ p ∈ ([(some 2, none), (none, some 3), (none, none)] :
      List (Option Int × Option Int)),
    ((Model.fromParameters (1 : ℚ) 1 (1/2) none 1).add exPrimsQ
      { ctype := "Holstein", freq := 5/2, M := 3, N := 2, Mtfd := p.1, Ntfd := p.2,
        g := some 1 }).map (fun m => (m.number.length, m.extent.length, m.ham.terms.length)) =
      .ok (0, 0, 0) := by decide +kernel

end GGCE.Props
