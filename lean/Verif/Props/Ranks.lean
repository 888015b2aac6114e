import Verif.Props.Parallel
import Verif.Proofs.Ranks
import Verif.Spec.Ranks

/-!
Property C110: programs started with `mpirun` on a shared disk.
-/

set_option linter.unusedSectionVars false

namespace GGCE.Props
open Spec

/-- the grids in a list of calls -/
def gridsOf (cs : List (Call ℝ)) : List (GridArg ℝ × GridArg ℝ × ℝ) := cs.filterMap (fun c => match c with
  | .solve _ => none
  | .grid k w eta => some (k, w, eta))

/-- the message of rank `j` in `gather` number `g`: one number for each of its points, related to it by `Q` -/
def MsgOk (Q : Point ℝ → Option ℂ → Prop) (size : Nat) (cs : List (Call ℝ)) (j g : Nat) (msg : List (Option ℂ)) : Prop :=
  ∃ k w eta ks ws js, (gridsOf cs)[g]? = some (k, w, eta) ∧ floatToList k = .ok ks ∧ floatToList w = .ok ws ∧
    chunkJobs (jobList ks ws) size j = .ok js ∧ List.Forall₂ Q (js.map (fun x => (⟨x.1, x.2, eta⟩ : Point ℝ))) msg

/-- all messages together -/
theorem gathered {Q : Point ℝ → Option ℂ → Prop} {size : Nat} (hs : 1 ≤ size) {cs : List (Call ℝ)} {g : Nat}
    {all : List (List (Option ℂ))} (hl : all.length = size) (h : ∀ (j : Nat) msg, all[j]? = some msg → MsgOk Q size cs j g msg)
    {k w : GridArg ℝ} {eta : ℝ} {ks ws : List ℝ} (hg : (gridsOf cs)[g]? = some (k, w, eta)) (hk : floatToList k = .ok ks)
    (hw : floatToList w = .ok ws) :
    List.Forall₂ Q ((jobList ks ws).map (fun x => (⟨x.1, x.2, eta⟩ : Point ℝ))) all.flatten := by
  obtain ⟨chunk, h1, h2, -⟩ := C27_chunks (jobList ks ws) size hs
  rw [← h2, List.map_flatten]
  refine List.rel_flatten ?_
  refine List.forall₂_iff_get.2 ⟨by simp [hl], fun j hj hj' => ?_⟩
  have hj2 : j < size := by simpa using hj
  obtain ⟨k', w', eta', ks', ws', js, e1, e2, e3, e4, e5⟩ := h j (all.get ⟨j, hj'⟩) (by simp [hj'])
  rw [hg] at e1
  cases e1
  rw [hk] at e2
  rw [hw] at e3
  cases e2
  cases e3
  rw [h1 j hj2] at e4
  cases e4
  simpa using e5

/-- the number of calls of `gather` in a call -/
def weight : Call ℝ → Nat
  | .solve _ => 0
  | .grid _ _ _ => 1

theorem gridsOf_drop {all cs : List (Call ℝ)} {c : Call ℝ} {n g : Nat} (h : all.drop n = c :: cs)
    (hg : (gridsOf all).drop g = gridsOf (c :: cs)) :
    all[n]? = some c ∧ n < all.length ∧ all.drop (n + 1) = cs ∧ (gridsOf all).drop (g + weight c) = gridsOf cs ∧
      (∀ k w eta, c = .grid k w eta → (gridsOf all)[g]? = some (k, w, eta) ∧ g < (gridsOf all).length) := by
  have hc : all[n]? = some c := by
    have := congrArg (fun l => l[0]?) h
    simpa using this
  have hlt : n < all.length := (List.getElem?_eq_some_iff.1 hc).1
  refine ⟨hc, hlt, ?_, ?_, ?_⟩
  · rw [List.drop_eq_getElem_cons hlt] at h
    exact (List.cons.inj h).2
  · cases c with
    | solve p => simpa [gridsOf, weight] using hg
    | grid k w eta =>
      have := congrArg (List.drop 1) hg
      simpa [gridsOf, weight] using this
  · rintro k w eta rfl
    have : (gridsOf all)[g]? = some (k, w, eta) := by
      have := congrArg (fun l => l[0]?) hg
      simpa [gridsOf] using this
    exact ⟨this, (List.getElem?_eq_some_iff.1 this).1⟩

section
variable {m : Model ℝ} {ae : Int} (hm : WellFormed m ae) (hp : Physical m)
  {acc : ℝ → ℝ} (hacc : Falls acc) {raw : Point ℝ → Py (Option ℂ)}
  (hraw : ∀ p v, 0 < p.eta → raw p = .ok v → AccurateTo m ae (acc p.eta) p v) (σ0 : SetOrder)

/-- what is required of output number `j` of rank `i` -/
def RankFit (m : Model ℝ) (ae : Int) (acc : ℝ → ℝ) (root : Option String) (cs : List (Call ℝ)) (i j : Nat)
    (x : RankOut ℂ) : Prop :=
  ∀ a c, x = .ok a → cs[j]? = some c → 4 / 10 ^ 10 ≤ Call.eta c → RankExpected m ae (tolAcc m acc root.isSome) i c a

/-- the numbers in messages -/
def Near (m : Model ℝ) (ae : Int) (acc : ℝ → ℝ) (root : Option String) (p : Point ℝ) (v : Option ℂ) : Prop :=
  4 / 10 ^ 10 ≤ p.eta → AccurateTo m ae (tolAcc m acc root.isSome p.eta) p v

/-- the safety of a rank -/
abbrev SafeRank (m : Model ℝ) (ae : Int) (acc : ℝ → ℝ) (root : Option String) (cs : List (Call ℝ)) (size i : Nat) :
    Nat → Nat → RankTask ℝ ℂ → Prop :=
  Task.Safe (Act.FineAll m (SoundAll m ae acc)) (RankFit m ae acc root cs i) (fun _ => True)
    (MsgOk (Near m ae acc root) size cs) size i cs.length (gridsOf cs).length

include hm hp hacc hraw σ0

theorem call_safe {root : Option String} {all : List (Call ℝ)} {size i n g : Nat} (hi : i < size) {c : Call ℝ}
    (hg : ∀ k w eta, c = .grid k w eta → (gridsOf all)[g]? = some (k, w, eta) ∧ g < (gridsOf all).length)
    {k : RankOut ℂ → RankTask ℝ ℂ} (he : ∀ e g', SafeRank m ae acc root all size i n g' (k (.error e)))
    (hk : ∀ a, (4 / 10 ^ 10 ≤ Call.eta c → RankExpected m ae (tolAcc m acc root.isSome) i c a) →
      SafeRank m ae acc root all size i n (g + weight c) (k (.ok a))) :
    SafeRank m ae acc root all size i n g (RankTask.call size i raw root c k) := by
  cases c with
  | solve p =>
    exact Task.Safe.into (solve_quiet (E := fun _ => True) hm hp hacc hraw σ0 root p (Or.inl fun _ => trivial))
      (fun v hv => hk _ hv) (fun e _ => he e g)
  | grid kk w eta =>
    obtain ⟨hg1, hg2⟩ := hg kk w eta rfl
    unfold RankTask.call
    simp only
    cases hkk : floatToList kk with
    | error e => exact he e g
    | ok ks =>
      dsimp only
      cases hw : floatToList w with
      | error e => exact he e g
      | ok ws =>
        dsimp only
        cases hj : chunkJobs (jobList ks ws) size i with
        | error e => exact he e g
        | ok js =>
          refine Task.Safe.into (solveAll_quiet (E := fun _ => True) hm hp hacc hraw σ0 root _ (Or.inl fun _ => trivial))
            (fun vs hvs => ?_) (fun e _ => he e g)
          have hmsg : MsgOk (Near m ae acc root) size all i g vs := ⟨kk, w, eta, ks, ws, js, hg1, hkk, hw, hj, hvs⟩
          refine ⟨hmsg, hg2, fun hi0 msgs hl hmsgs => ?_, fun hi0 => hk _ (fun _ => hi0)⟩
          have hall := gathered (by omega) hl hmsgs hg1 hkk hw
          have hlen : msgs.flatten.length = ks.length * ws.length := by
            rw [← hall.length_eq, List.length_map, jobList_length]
          obtain ⟨M, hM⟩ : ∃ M, reshapeGrid msgs.flatten ks.length ws.length = .ok M :=
            ⟨_, if_pos hlen⟩
          simp only [hM, Except.map]
          refine hk _ (fun h4 => ⟨hi0, grid_answer hkk hw hall ?_ h4⟩)
          simp [Except.bind, hM, Except.map]

theorem rank_calls_safe {root : Option String} {all : List (Call ℝ)} {size i : Nat} (hi : i < size) (cs : List (Call ℝ)) {n g : Nat}
    (h : all.drop n = cs) (hg : (gridsOf all).drop g = gridsOf cs) (hn : n ≤ all.length) (hgn : g ≤ (gridsOf all).length) :
    SafeRank m ae acc root all size i n g (RankTask.calls size i raw root cs) := by
  induction cs generalizing n g with
  | nil =>
    exact ⟨le_antisymm hn (List.drop_eq_nil_iff.1 h), le_antisymm hgn (List.drop_eq_nil_iff.1 hg)⟩
  | cons c cs ih =>
    obtain ⟨h1, h2, h3, h4, h5⟩ := gridsOf_drop h hg
    refine call_safe hm hp hacc hraw σ0 hi h5 (fun e g' => ⟨fun a c' ha => (by cases ha), trivial⟩) (fun a ha => ⟨?_, ?_⟩)
    · intro a' c' ha' hc'
      cases ha'
      rw [h1] at hc'
      cases hc'
      exact ha
    · refine ih h3 h4 h2 ?_
      cases c with
      | solve p => exact hgn
      | grid k w eta => exact (h5 k w eta rfl).2

end

theorem rank_program_safe {m : Model ℝ} {ae : Int} (hm : WellFormed m ae) (hp : Physical m) {acc : ℝ → ℝ} (hacc : Falls acc)
    (s : Script ℝ ℂ) (hk : Good m ae acc s.kind) {size i : Nat} (hi : i < size) :
    SafeRank m ae acc s.source.solverRoot s.calls size i 0 0 (RankTask.program realPhys m size i s) := by
  unfold RankTask.program
  refine Task.Safe.into (Act.construct_quiet (J := SoundAll m ae acc) (E := fun _ => True) (builds hm) s
    (Or.inl fun _ => trivial)) (fun o ho => ?_) (fun e _ => ⟨fun a c ha => (by cases ha), trivial⟩)
  exact rank_calls_safe hm hp hacc (hk o ho) s.order hi s.calls (by simp) (by simp) (by simp) (by simp)

theorem startRanks_get {F : Phys ℝ ℂ} {m : Model ℝ} {size : Nat} {order : Nat → SetOrder} {s : Script ℝ ℂ} {i : Nat}
    {p : Rank ℝ ℂ} (h : (startRanks F m size order s)[i]? = some p) :
    i < size ∧ p = ⟨[], [], RankTask.program F m size i { s with order := order i }⟩ := by
  have hi : i < size := by
    have := (List.getElem?_eq_some_iff.1 h).1
    simpa [startRanks] using this
  refine ⟨hi, ?_⟩
  simp [startRanks, hi] at h
  exact h.symm

/-- the invariant of everything that runs -/
theorem rankReach_track {m : Model ℝ} {ae : Int} (hm : WellFormed m ae) (hp : Physical m) {acc : ℝ → ℝ} (hacc : Falls acc)
    {solvers : SolverKind ℂ → Prop} (hs : ∀ k, solvers k → Good m ae acc k) {size : ℕ} {order : ℕ → SetOrder}
    {s : Script ℝ ℂ} {st0 st : Store ℝ ℂ} {ps : List (Running ℝ ℂ)} {ranks : List (Rank ℝ ℂ)}
    (h : RankReach m solvers size order s st0 st ps ranks) :
    Act.FineAll m (SoundAll m ae acc) st ∧ (∀ p ∈ ps, OnTrack m ae acc p) ∧ ranks.length = size ∧
      ∀ (i : Nat) p, ranks[i]? = some p → p.Track (Act.FineAll m (SoundAll m ae acc))
        (RankFit m ae acc s.source.solverRoot s.calls i) (fun _ => True) (MsgOk (Near m ae acc s.source.solverRoot) size s.calls)
        size s.calls.length (gridsOf s.calls).length i := by
  induction h with
  | @start before ps h hb hk =>
    have ht := reach_track hm hp hacc hs h
    refine ⟨ht.1, fun p hp' => ht.2 p (hb p hp'), by simp [startRanks], fun i p hi => ?_⟩
    obtain ⟨h1, rfl⟩ := startRanks_get hi
    exact ⟨by simp, by simp, rank_program_safe hm hp hacc { s with order := order i } (hs _ hk) h1⟩
  | @rank st st' ps ranks i p p' h hi hmv ih =>
    obtain ⟨h1, h2, h3, h4⟩ := ih
    obtain ⟨h5, h6⟩ := Rank.Track.move (P := RankFit m ae acc s.source.solverRoot s.calls) h3 h4 hi h1 hmv
    refine ⟨h6, h2, by simp [h3], fun j q hj => ?_⟩
    by_cases e : j = i
    · subst e
      rw [List.getElem?_set_self (List.getElem?_eq_some_iff.1 hi).1] at hj
      cases hj
      exact h5
    · rw [List.getElem?_set_ne (Ne.symm e)] at hj
      exact h4 j q hj
  | program s' h hk ih =>
    refine ⟨ih.1, fun p hp' => ?_, ih.2.2⟩
    rcases List.mem_append.1 hp' with h' | h'
    · exact ih.2.1 p h'
    · rw [List.mem_singleton.1 h']
      exact ⟨by simp, program_safe hm hp hacc s' (hs _ hk) (fun _ => trivial)⟩
  | other i p h hi ih =>
    have h1 := ih.2.1 p (List.mem_of_getElem? hi)
    refine ⟨(h1.move ih.1).2, fun q hq => ?_, ih.2.2⟩
    rcases List.mem_or_eq_of_mem_set hq with h' | rfl
    · exact ih.2.1 q h'
    · exact (h1.move ih.1).1

/-- **C110**, accuracy. A program for a model is started with `mpirun` on `size` ranks, on a disk that other programs for the
model have used before and may use at the same time; the ranks and the other programs take their steps in any order. Whatever
a rank has printed for a call with a broadening of at least `4e-10` is right: for a grid, rank 0 has the whole array, with
every number as accurate as C108 says for a program on one process, and the other ranks have `None`. -/
theorem C110_accuracy (m : Model ℝ) (ae : Int) (hm : WellFormed m ae) (hp : Physical m) (ρ : ℝ) (hρ : 0 ≤ ρ)
    (size : ℕ) (order : ℕ → SetOrder) (s : Script ℝ ℂ) (st0 st : Store ℝ ℂ) (ps : List (Running ℝ ℂ))
    (ranks : List (Rank ℝ ℂ)) (h : RankReach m (KindRelative ρ) size order s st0 st ps ranks) (i : ℕ) (p : Rank ℝ ℂ)
    (hi : ranks[i]? = some p) (j : ℕ) (c : Call ℝ) (a : Option (Answer ℂ)) (hc : s.calls[j]? = some c)
    (ha : p.said[j]? = some (.ok a)) (h4 : 4 / 10 ^ 10 ≤ Call.eta c) :
    RankExpected m ae (toleranceTo m ρ s.source.solverRoot) i c a := by
  have := ((rankReach_track hm hp (falls_residual m hρ) (good_relative hm hp hρ) h).2.2.2 i p hi).said j _ ha a c rfl hc h4
  have e : tolAcc m (residualError m ρ) s.source.solverRoot.isSome = toleranceTo m ρ s.source.solverRoot := by
    funext eta
    cases s.source.solverRoot <;> simp [tolAcc, toleranceTo]
  rwa [e] at this

/-! ### termination -/

/-- **C110**, end. Whatever happens to the disk between their steps, the ranks can take only finitely many steps: in an
infinite sequence of moments, with `mover t` the rank that takes a step at moment `t` (or none of them), there is a moment
after which no rank moves. -/
theorem C110_terminates (st : ℕ → Store ℝ ℂ) (ranks : ℕ → List (Rank ℝ ℂ)) (mover : ℕ → Option ℕ)
    (hnone : ∀ t, mover t = none → ranks (t + 1) = ranks t)
    (hsome : ∀ t i, mover t = some i → ∃ p st' p', (ranks t)[i]? = some p ∧ p.move (ranks t) i (st t) = some (st', p') ∧
      ranks (t + 1) = (ranks t).set i p') :
    ∃ T, ∀ t ≥ T, mover t = none := by
  classical
  have hlen : ∀ t, (ranks t).length = (ranks 0).length := by
    intro t
    induction t with
    | zero => rfl
    | succ t ih =>
      cases hm : mover t with
      | none => rw [hnone t hm, ih]
      | some i =>
        obtain ⟨p, st', p', -, -, e⟩ := hsome t i hm
        rw [e, List.length_set, ih]
  have one : ∀ (i : ℕ) (x : RankTask ℝ ℂ) (t0 : ℕ) (p : Rank ℝ ℂ), (ranks t0)[i]? = some p → p.rest = x →
      ∃ T, ∀ t ≥ T, mover t ≠ some i := by
    intro i x
    have change : ∀ (t0 : ℕ) (p : Rank ℝ ℂ), (ranks t0)[i]? = some p → (∀ t ≥ t0, mover t ≠ some i) ∨
        ∃ t1 st' p', (ranks (t1 + 1))[i]? = some p' ∧ p.move (ranks t1) i (st t1) = some (st', p') := by
      intro t0 p hp
      by_cases hc : ∀ t ≥ t0, mover t ≠ some i
      · exact Or.inl hc
      · right
        have hex : ∃ d, mover (t0 + d) = some i := by
          by_contra hno
          refine hc (fun t ht hm => hno ⟨t - t0, by rwa [Nat.add_sub_cancel' ht]⟩)
        have same : ∀ d, d ≤ Nat.find hex → (ranks (t0 + d))[i]? = some p := by
          intro d
          induction d with
          | zero => exact fun _ => hp
          | succ d ih =>
            intro hd
            have h1 := ih (by omega)
            have h2 := Nat.find_min hex (show d < Nat.find hex by omega)
            rw [← Nat.add_assoc]
            cases hm : mover (t0 + d) with
            | none => rw [hnone _ hm, h1]
            | some j =>
              obtain ⟨q, st', q', -, -, e⟩ := hsome _ j hm
              rw [e, List.getElem?_set_ne, h1]
              rintro rfl
              exact h2 hm
        obtain ⟨q, st', q', hq, hmv, e⟩ := hsome _ i (Nat.find_spec hex)
        rw [same _ le_rfl] at hq
        cases hq
        refine ⟨_, st', q', ?_, hmv⟩
        rw [e, List.getElem?_set_self (List.getElem?_eq_some_iff.1 (same _ le_rfl)).1]
    induction x with
    | stop r =>
      intro t0 p hp hr
      rcases change t0 p hp with hc | ⟨t1, st', p', h1, h2⟩
      · exact ⟨t0, hc⟩
      · unfold Rank.move at h2
        rw [hr] at h2
        cases h2
    | read f k ih =>
      intro t0 p hp hr
      rcases change t0 p hp with hc | ⟨t1, st', p', h1, h2⟩
      · exact ⟨t0, hc⟩
      · unfold Rank.move at h2
        rw [hr] at h2
        cases h2
        exact ih _ _ _ h1 rfl
    | write f k ih =>
      intro t0 p hp hr
      rcases change t0 p hp with hc | ⟨t1, st', p', h1, h2⟩
      · exact ⟨t0, hc⟩
      · unfold Rank.move at h2
        rw [hr] at h2
        cases h2
        exact ih _ _ h1 rfl
    | say b k ih =>
      intro t0 p hp hr
      rcases change t0 p hp with hc | ⟨t1, st', p', h1, h2⟩
      · exact ⟨t0, hc⟩
      · unfold Rank.move at h2
        rw [hr] at h2
        cases h2
        exact ih _ _ h1 rfl
    | gather msg k ih =>
      intro t0 p hp hr
      rcases change t0 p hp with hc | ⟨t1, st', p', h1, h2⟩
      · exact ⟨t0, hc⟩
      · rcases Rank.move_some h2 with ⟨β, f, k', hr', -, -⟩ | ⟨f, k', hr', -, -⟩ | ⟨b, k', hr', -, -⟩ |
          ⟨msg', k', others, hr', -, -, -, rfl⟩ | ⟨msg', k', hr', -, -, rfl⟩
        · rw [hr] at hr'; cases hr'
        · rw [hr] at hr'; cases hr'
        · rw [hr] at hr'; cases hr'
        · rw [hr] at hr'; cases hr'; exact ih _ _ _ h1 rfl
        · rw [hr] at hr'; cases hr'; exact ih _ _ _ h1 rfl
  have none_of : ∀ (t i : ℕ), mover t = some i → i < (ranks 0).length := by
    intro t i hm
    obtain ⟨p, -, -, hp, -⟩ := hsome t i hm
    rw [← hlen t]
    exact (List.getElem?_eq_some_iff.1 hp).1
  have each : ∀ i : ℕ, ∃ T, ∀ t ≥ T, mover t ≠ some i := by
    intro i
    cases hp : (ranks 0)[i]? with
    | some p => exact one i p.rest 0 p hp rfl
    | none =>
      refine ⟨0, fun t _ hm => ?_⟩
      rw [List.getElem?_eq_none_iff] at hp
      exact absurd (none_of t i hm) (by omega)
  choose T hT using each
  obtain ⟨B, hB⟩ : ∃ B, ∀ i < (ranks 0).length, T i ≤ B := by
    generalize (ranks 0).length = n
    induction n with
    | zero => exact ⟨0, by simp⟩
    | succ n ih =>
      obtain ⟨B, hB⟩ := ih
      refine ⟨max B (T n), fun i hi => ?_⟩
      rcases Nat.lt_succ_iff_lt_or_eq.1 hi with h' | rfl
      · exact le_trans (hB i h') (le_max_left _ _)
      · exact le_max_right _ _
  refine ⟨B, fun t ht => ?_⟩
  cases hm : mover t with
  | none => rfl
  | some i => exact absurd hm (hT i t (le_trans (hB i (none_of t i hm)) ht))

/-! ### programs that are not disturbed -/

/-- a program that uses the result files of rank `i` -/
def rankScript (s : Script ℝ ℂ) (size i : Nat) : Script ℝ ℂ :=
  { s with calls := (s.calls.flatMap (Call.share size i)).map .solve }

theorem rankScript_uses {s : Script ℝ ℂ} {size i : Nat} {r : String} {c : PyStr} :
    Script.Uses (rankScript s size i) r c ↔ RankUses s size i r c := by
  unfold Script.Uses RankUses rankScript
  refine and_congr Iff.rfl ⟨?_, ?_⟩
  · rintro ⟨call, h1, p, h2, h3⟩
    obtain ⟨q, hq, rfl⟩ := List.mem_map.1 h1
    rw [List.mem_singleton.1 h2] at h3
    obtain ⟨call, h4, h5⟩ := List.mem_flatMap.1 hq
    exact ⟨call, h4, q, h5, h3⟩
  · rintro ⟨call, h1, p, h2, h3⟩
    exact ⟨.solve p, List.mem_map.2 ⟨p, List.mem_flatMap.2 ⟨call, h1, h2⟩, rfl⟩, p, List.mem_singleton.2 rfl, h3⟩

/-- what `get_jobs_on_this_rank` gives a rank -/
theorem share_grid {k w : GridArg ℝ} {eta : ℝ} {ks ws : List ℝ} (hk : floatToList k = .ok ks) (hw : floatToList w = .ok ws)
    {size i : Nat} (hi : i < size) {js : List (ℝ × ℝ)} (hj : chunkJobs (jobList ks ws) size i = .ok js) :
    js.map (fun x => (⟨x.1, x.2, eta⟩ : Point ℝ)) = Call.share size i (.grid k w eta) := by
  rw [chunkJobs_ok _ _ _ hi] at hj
  cases hj
  unfold Call.share
  simp only [← call_points hk hw, List.map_drop, List.map_take, List.length_map, List.drop_take]
  rfl

/-- what an undisturbed rank does -/
abbrev OwnRank (s : Script ℝ ℂ) (I : Store ℝ ℂ → Prop) (size i : Nat) :
    (View (rankScript s size i) → Prop) → Nat → Nat → RankTask ℝ ℂ → Prop :=
  Task.Own (fun st => view (rankScript s size i) st.results) I (fun _ x => ∃ a, x = .ok a) (fun _ => False)
    (MsgOk (fun _ _ => True) size s.calls) size i s.calls.length (gridsOf s.calls).length

theorem call_own_rank (s : Script ℝ ℂ) (I : Store ℝ ℂ → Prop) {raw : Point ℝ → Py (Option ℂ)}
    (hv : ∀ p, 0 < p.eta → ∃ v, raw p = .ok v) {size i n g : Nat} (hi : i < size) {c : Call ℝ} (hc : Call.Ok c) (hmem : c ∈ s.calls)
    (hg : ∀ k w eta, c = .grid k w eta → (gridsOf s.calls)[g]? = some (k, w, eta) ∧ g < (gridsOf s.calls).length)
    {k : RankOut ℂ → RankTask ℝ ℂ} (hk : ∀ a, OwnRank s I size i Clean n (g + weight c) (k (.ok a))) :
    OwnRank s I size i Clean n g (RankTask.call size i raw s.source.solverRoot c k) := by
  have hu : ∀ r, s.source.solverRoot = some r → ∀ p ∈ Call.share size i c, Script.Uses (rankScript s size i) r (cacheKey p) :=
    fun r hr p hp => rankScript_uses.2 ⟨hr, c, hmem, p, hp, rfl⟩
  cases c with
  | solve p =>
    obtain ⟨v, hp⟩ := hv p (lt_of_lt_of_le (by positivity) hc)
    exact Task.Own.into (solve_own (rankScript s size i) I p _ (fun r hr => hu r hr p (by simp [Call.share])) hp n)
      (fun a _ => hk _)
  | grid kk w eta =>
    obtain ⟨hg1, hg2⟩ := hg kk w eta rfl
    obtain ⟨ks, -, hkk⟩ := floatToList_points hc.2.1
    obtain ⟨ws, -, hw⟩ := floatToList_points hc.2.2
    have hj := chunkJobs_ok (jobList ks ws) size i hi
    unfold RankTask.call
    simp only [hkk, hw]
    generalize (List.drop _ (List.take _ (jobList ks ws)) : List (ℝ × ℝ)) = js at hj
    simp only [hj]
    refine Task.Own.into (solveAll_own (rankScript s size i) I _ _ ?_ ?_ n) (fun vs hvs => ?_)
    · rw [share_grid hkk hw hi hj]
      exact hu
    · intro p hp
      obtain ⟨j, -, rfl⟩ := List.mem_map.1 hp
      exact hv _ (lt_of_lt_of_le (by positivity) hc.1)
    obtain ⟨_, -, hl⟩ := hvs
    have hmsg : MsgOk (fun _ _ => True) size s.calls i g vs :=
      ⟨kk, w, eta, ks, ws, js, hg1, hkk, hw, hj, List.forall₂_iff_get.2 ⟨hl.symm, fun _ _ _ => trivial⟩⟩
    refine ⟨hmsg, hg2, fun hi0 msgs hl hmsgs => ?_, fun hi0 => hk _⟩
    have hall := gathered (by omega) hl hmsgs hg1 hkk hw
    have hlen : msgs.flatten.length = ks.length * ws.length := by
      rw [← hall.length_eq, List.length_map, jobList_length]
    simp only [reshapeGrid, if_pos hlen, Except.map]
    exact hk _

theorem calls_own_rank (s : Script ℝ ℂ) (I : Store ℝ ℂ → Prop) {raw : Point ℝ → Py (Option ℂ)}
    (hv : ∀ p, 0 < p.eta → ∃ v, raw p = .ok v) {size i : Nat} (hi : i < size) (hok : ∀ c ∈ s.calls, Call.Ok c)
    (cs : List (Call ℝ)) {n g : Nat} (h : s.calls.drop n = cs) (hg : (gridsOf s.calls).drop g = gridsOf cs)
    (hn : n ≤ s.calls.length) (hgn : g ≤ (gridsOf s.calls).length) :
    OwnRank s I size i Clean n g (RankTask.calls size i raw s.source.solverRoot cs) := by
  induction cs generalizing n g with
  | nil =>
    exact ⟨le_antisymm hn (List.drop_eq_nil_iff.1 h), le_antisymm hgn (List.drop_eq_nil_iff.1 hg)⟩
  | cons c cs ih =>
    obtain ⟨h1, h2, h3, h4, h5⟩ := gridsOf_drop h hg
    have hmem := List.mem_of_getElem? h1
    refine call_own_rank s I hv hi (hok c hmem) hmem h5 (fun a => ⟨⟨a, rfl⟩, ih h3 h4 h2 ?_⟩)
    cases c with
    | solve p => exact hgn
    | grid k w eta => exact (h5 k w eta rfl).2

theorem program_own_rank {m : Model ℝ} {ae : Int} (hm : WellFormed m ae) (hp : Physical m)
    {J : (String → Dict PyStr (File (Option ℂ))) → Prop} (s : Script ℝ ℂ) (hs : Steady s) (σ : SetOrder) {size i : Nat}
    (hi : i < size) : OwnRank s (Act.FineAll m J) size i Clean 0 0 (RankTask.program realPhys m size i { s with order := σ }) := by
  unfold RankTask.program
  refine Task.Own.into (Todo.Own.of_safe (Act.construct_quiet (J := J) (E := fun _ => False) (builds hm) { s with order := σ }
    (Or.inr hs.source) 0) (Act.construct_keeps m { s with order := σ })) ?_
  rintro o ⟨_, -, ho⟩
  exact calls_own_rank s _ (fun p h0 => (good_answers hm hp _ hs.kind o ho p h0).imp' some (fun _ h => h)) hi hs.calls
    s.calls (by simp) (by simp) (by simp) (by simp)

theorem call_keeps_rank {W : Type} {V : (String → Dict PyStr (File (Option ℂ))) → W} (raw : Point ℝ → Py (Option ℂ))
    {root : Option String} {size i : Nat} (hi : i < size) (c : Call ℝ)
    (hu : ∀ r, root = some r → ∀ p ∈ Call.share size i c, Act.Apart V r (cacheKey p)) {k : RankOut ℂ → RankTask ℝ ℂ}
    (hk : ∀ r, Task.Keeps (fun st => V st.results) (k r)) :
    Task.Keeps (fun st => V st.results) (RankTask.call size i raw root c k) := by
  unfold RankTask.call
  cases c with
  | solve p => exact Task.Keeps.into (Act.solve_keeps raw _ p (fun r hr => hu r hr p (by simp [Call.share]))) (fun r => hk _)
  | grid kk w eta =>
    dsimp only
    cases hkk : floatToList kk with
    | error e => exact hk _
    | ok ks =>
      dsimp only
      cases hw : floatToList w with
      | error e => exact hk _
      | ok ws =>
        dsimp only
        cases hj : chunkJobs (jobList ks ws) size i with
        | error e => exact hk _
        | ok js =>
          dsimp only
          rw [share_grid hkk hw hi hj]
          refine Task.Keeps.into (Act.solveAll_keeps raw _ _ hu) (fun r => ?_)
          cases r with
          | error e => exact hk _
          | ok vs =>
            intro all
            cases all with
            | none => exact hk _
            | some all => exact hk _

/-- a rank leaves the files of others alone -/
theorem program_keeps_rank {m : Model ℝ} (s s' : Script ℝ ℂ) {size i : Nat} (hi : i < size)
    (h : ∀ r c, RankUses s size i r c → ¬ Script.Uses s' r c) (σ : SetOrder) :
    Task.Keeps (fun st => view s' st.results) (RankTask.program realPhys m size i { s with order := σ }) := by
  have key : ∀ (raw : Point ℝ → Py (Option ℂ)) (cs : List (Call ℝ)), (∀ c ∈ cs, c ∈ s.calls) →
      Task.Keeps (fun st => view s' st.results) (RankTask.calls size i raw s.source.solverRoot cs) := by
    intro raw cs hcs
    induction cs with
    | nil => trivial
    | cons c cs ih =>
      unfold RankTask.calls
      refine call_keeps_rank raw hi c (fun r hr p hp => view_apart (h r _ ⟨hr, c, hcs c (by simp), p, hp, rfl⟩)) (fun r => ?_)
      cases r with
      | error e => trivial
      | ok a => exact ih (fun c' h => hcs c' (by simp [h]))
  unfold RankTask.program
  refine Task.Keeps.into (Act.construct_keeps m { s with order := σ }) (fun r => ?_)
  cases r with
  | error e => trivial
  | ok o => exact key _ _ (fun c h => h)

/-- nobody else touches the files of a rank -/
theorem rankReach_keeps {m : Model ℝ} {solvers : SolverKind ℂ → Prop} {size : ℕ} {order : ℕ → SetOrder}
    {s : Script ℝ ℂ} {st0 st : Store ℝ ℂ} {ps : List (Running ℝ ℂ)} {ranks : List (Rank ℝ ℂ)}
    (h : RankReach m solvers size order s st0 st ps ranks) {i : Nat} :
    (∀ p ∈ ps, Disjoint p.script (rankScript s size i) →
      Todo.Keeps (fun st => view (rankScript s size i) st.results) p.rest) ∧
    ((∀ j < size, j ≠ i → ∀ r c, RankUses s size j r c → ¬ RankUses s size i r c) → ∀ (j : Nat) q, j ≠ i → ranks[j]? = some q →
      Task.Keeps (fun st => view (rankScript s size i) st.results) q.rest) := by
  induction h with
  | @start before ps h hb hk =>
    refine ⟨fun p hp' hd => (reach_keeps h _).1 p (hb p hp') hd, fun hd j q hj hq => ?_⟩
    obtain ⟨h1, rfl⟩ := startRanks_get hq
    exact program_keeps_rank s _ h1 (fun r c h h' => hd j h1 hj r c h (rankScript_uses.1 h')) _
  | @rank st st' ps ranks j p p' h hj hmv ih =>
    refine ⟨ih.1, fun hd l q hl hq => ?_⟩
    by_cases e : l = j
    · subst e
      rw [List.getElem?_set_self (List.getElem?_eq_some_iff.1 hj).1] at hq
      cases hq
      exact (Rank.move_keeps (ih.2 hd l p hl hj) hmv).1
    · rw [List.getElem?_set_ne (Ne.symm e)] at hq
      exact ih.2 hd l q hl hq
  | program s' h hk ih =>
    refine ⟨fun p hp hd => ?_, ih.2⟩
    rcases List.mem_append.1 hp with h' | h'
    · exact ih.1 p h' hd
    · rw [List.mem_singleton.1 h'] at hd ⊢
      exact program_keeps s' _ hd
  | @other st ps ranks j p h hj ih =>
    refine ⟨fun q hq hd => ?_, ih.2⟩
    rcases List.mem_or_eq_of_mem_set hq with h' | rfl
    · exact ih.1 q h' hd
    · rw [move_script] at hd
      exact (move_keeps (ih.1 p (List.mem_of_getElem? hj) hd) st).1

/-- where an undisturbed rank is -/
structure OwnTrack (s : Script ℝ ℂ) (I : Store ℝ ℂ → Prop) (size : Nat) (st : Store ℝ ℂ) (i : Nat) (p : Rank ℝ ℂ) : Prop where
  said : ∀ (j : Nat) x, p.said[j]? = some x → ∃ a, x = .ok a
  sent : ∀ (g : Nat) msg, p.sent[g]? = some msg → MsgOk (fun _ _ => True) size s.calls i g msg
  rest : ∃ C : View (rankScript s size i) → Prop, C (view (rankScript s size i) st.results) ∧
    OwnRank s I size i C p.said.length p.sent.length p.rest

theorem OwnTrack.move {s : Script ℝ ℂ} {I : Store ℝ ℂ → Prop} {size : Nat} {st st' : Store ℝ ℂ} {ranks : List (Rank ℝ ℂ)}
    (hs : ranks.length = size) (h : ∀ (j : Nat) q, ranks[j]? = some q → OwnTrack s I size st j q) {i : Nat} {p p' : Rank ℝ ℂ}
    (hi : ranks[i]? = some p) (hst : I st) (hm : p.move ranks i st = some (st', p')) : OwnTrack s I size st' i p' := by
  obtain ⟨h1, h2, C, h0, h3⟩ := h i p hi
  rcases Rank.move_some hm with ⟨β, f, k, hr, rfl, rfl⟩ | ⟨f, k, hr, rfl, rfl⟩ | ⟨b, k, hr, rfl, rfl⟩ |
    ⟨msg, k, others, hr, rfl, ho, rfl, rfl⟩ | ⟨msg, k, hr, hi, rfl, rfl⟩
  · rw [hr] at h3; exact ⟨h1, h2, fun w => w = view (rankScript s size i) st'.results, rfl, h3 _ hst h0⟩
  · rw [hr] at h3
    obtain ⟨C', h4, h5⟩ := h3
    exact ⟨h1, h2, C', h4 st hst h0, h5⟩
  · rw [hr] at h3
    exact ⟨append_ok (P := fun _ (x : RankOut ℂ) => ∃ a, x = .ok a) h1 h3.1, h2, C, h0, by simpa using h3.2⟩
  · rw [hr] at h3
    obtain ⟨h4, h5, h6, -⟩ := h3
    obtain ⟨r1, r2⟩ := received hi hs (fun j q hq => (h j q hq).sent) h4 ho
    exact ⟨h1, append_ok (P := MsgOk _ size s.calls 0) h2 h4, C, h0, by simpa using h6 rfl _ r1 r2⟩
  · rw [hr] at h3
    exact ⟨h1, append_ok (P := MsgOk _ size s.calls i) h2 h3.1, C, h0, by simpa using h3.2.2.2 hi⟩

theorem OwnTrack.keep {s : Script ℝ ℂ} {I : Store ℝ ℂ → Prop} {size : Nat} {st st' : Store ℝ ℂ} {i : Nat} {p : Rank ℝ ℂ}
    (h : OwnTrack s I size st i p) (hv : view (rankScript s size i) st'.results = view (rankScript s size i) st.results) :
    OwnTrack s I size st' i p := by
  obtain ⟨h1, h2, C, h0, h3⟩ := h
  exact ⟨h1, h2, C, by rw [hv]; exact h0, h3⟩

theorem rankReach_own {m : Model ℝ} {ae : Int} (hm : WellFormed m ae) (hp : Physical m) {acc : ℝ → ℝ} (hacc : Falls acc)
    {solvers : SolverKind ℂ → Prop} (hs : ∀ k, solvers k → Good m ae acc k) {size : ℕ} {order : ℕ → SetOrder}
    {s : Script ℝ ℂ} (hst : Steady s) {st0 st : Store ℝ ℂ} {ps : List (Running ℝ ℂ)} {ranks : List (Rank ℝ ℂ)}
    (h : RankReach m solvers size order s st0 st ps ranks) (ha : Alone s size st0 ps) (i : Nat) (p : Rank ℝ ℂ)
    (hi : ranks[i]? = some p) : OwnTrack s (Act.FineAll m (SoundAll m ae acc)) size st i p := by
  induction h generalizing i p with
  | @start before ps h hb hk =>
    obtain ⟨h1, rfl⟩ := startRanks_get hi
    refine ⟨by simp, by simp, Clean, fun x => ?_, program_own_rank hm hp s hst _ h1⟩
    exact ha.files i h1 x.1.1 x.1.2 (rankScript_uses.1 x.2)
  | @rank st st' ps ranks j q q' h hj hmv ih =>
    obtain ⟨t1, -, t3, -⟩ := rankReach_track hm hp hacc hs h
    by_cases e : i = j
    · subst e
      rw [List.getElem?_set_self (List.getElem?_eq_some_iff.1 hj).1] at hi
      cases hi
      exact OwnTrack.move t3 (ih ha) hj t1 hmv
    · rw [List.getElem?_set_ne (Ne.symm e)] at hi
      refine (ih ha i p hi).keep ?_
      have hil := (List.getElem?_eq_some_iff.1 hi).1
      exact (Rank.move_keeps ((rankReach_keeps h).2 (fun l hl hli r c h1 h2 => ha.ranks l hl i (by omega) hli r c h1 h2)
        j q (Ne.symm e) hj) hmv).2
  | @program st ps ranks s' h hk ih =>
    exact ih ⟨ha.ranks, fun i hi p hp => ha.others i hi p (by simp [hp]), ha.files⟩ i p hi
  | @other st ps ranks j q h hj ih =>
    have ha' : Alone s size st0 ps := by
      refine ⟨ha.ranks, fun l hl r hr => ?_, ha.files⟩
      obtain ⟨t, ht⟩ := List.getElem?_of_mem hr
      by_cases e : t = j
      · subst e
        rw [hj] at ht
        cases ht
        have := ha.others l hl (q.move st).2 (List.mem_of_getElem? (i := t) (by simp [(List.getElem?_eq_some_iff.1 hj).1]))
        rwa [move_script] at this
      · exact ha.others l hl r (List.mem_of_getElem? (i := t) (by rw [List.getElem?_set_ne (Ne.symm e), ht]))
    refine (ih ha' i p hi).keep ?_
    have hil : i < size := by
      have := (List.getElem?_eq_some_iff.1 hi).1
      rwa [(rankReach_track hm hp hacc hs h).2.2.1] at this
    have hd : Disjoint q.script (rankScript s size i) := fun r c h1 h2 =>
      ha'.others i hil q (List.mem_of_getElem? hj) r c (rankScript_uses.1 h2) h1
    exact (move_keeps ((rankReach_keeps h).1 q (List.mem_of_getElem? hj) hd) st).2

/-- rank 0 is never ahead of another rank -/
theorem rankReach_behind {m : Model ℝ} {solvers : SolverKind ℂ → Prop} {size : ℕ} {order : ℕ → SetOrder}
    {s : Script ℝ ℂ} {st0 st : Store ℝ ℂ} {ps : List (Running ℝ ℂ)} {ranks : List (Rank ℝ ℂ)}
    (h : RankReach m solvers size order s st0 st ps ranks) (p : Rank ℝ ℂ) (hp : ranks[0]? = some p) (j : Nat) (q : Rank ℝ ℂ)
    (hq : ranks[j]? = some q) : p.sent.length ≤ q.sent.length := by
  induction h generalizing p j q with
  | @start before ps h hb hk =>
    obtain ⟨-, rfl⟩ := startRanks_get hp
    simp
  | @rank st st' ps ranks i r r' h hi hmv ih =>
    have grow : r.sent.length ≤ r'.sent.length := by
      rcases Rank.move_some hmv with ⟨β, f, k, hr, rfl, rfl⟩ | ⟨f, k, hr, rfl, rfl⟩ | ⟨b, k, hr, rfl, rfl⟩ |
        ⟨msg, k, others, hr, rfl, ho, rfl, rfl⟩ | ⟨msg, k, hr, hi, rfl, rfl⟩ <;> simp
    by_cases e : i = 0
    · subst e
      rw [List.getElem?_set_self (List.getElem?_eq_some_iff.1 hi).1] at hp
      cases hp
      by_cases e' : j = 0
      · subst e'
        rw [List.getElem?_set_self (List.getElem?_eq_some_iff.1 hi).1] at hq
        cases hq
        exact le_rfl
      · rw [List.getElem?_set_ne (Ne.symm e')] at hq
        have h0 := ih r hi j q hq
        rcases Rank.move_some hmv with ⟨β, f, k, hr, rfl, rfl⟩ | ⟨f, k, hr, rfl, rfl⟩ | ⟨b, k, hr, rfl, rfl⟩ |
          ⟨msg, k, others, hr, -, ho, rfl, rfl⟩ | ⟨msg, k, hr, hne, rfl, rfl⟩
        · exact h0
        · exact h0
        · exact h0
        · obtain ⟨h1, h2⟩ := mapM_some ho
          have hj : (ranks.drop 1)[j - 1]? = some q := by
            rw [List.getElem?_drop, show 1 + (j - 1) = j by omega, hq]
          have h3 := h2 _ _ hj
          have hlt : j - 1 < others.length := by
            rw [h1]; exact (List.getElem?_eq_some_iff.1 hj).1
          rw [List.getElem?_eq_getElem hlt] at h3
          have := (List.getElem?_eq_some_iff.1 h3.symm).1
          simpa using this
        · exact absurd rfl hne
    · rw [List.getElem?_set_ne e] at hp
      by_cases e' : j = i
      · subst e'
        rw [List.getElem?_set_self (List.getElem?_eq_some_iff.1 hi).1] at hq
        cases hq
        exact le_trans (ih p hp j r hi) grow
      · rw [List.getElem?_set_ne (Ne.symm e')] at hq
        exact ih p hp j q hq
  | program s' h hk ih => exact ih p hp j q hq
  | other i r h hi ih => exact ih p hp j q hq

/-- **C110**, undisturbed programs. Let the program construct its system (in a directory that all ranks and others may use at
the same time), let its linear solver not raise and its calls have proper arguments, and let no result file be used by two
ranks or by a rank and another program that runs, nor be incomplete at the start. Then no rank raises, whatever the order of
the steps; there is no deadlock: as long as a rank has not come to its end, one of them can take a step, even if messages are
not buffered; and a rank that has come to its end has printed the answers to all calls, for a grid the whole array on rank 0
and `None` elsewhere. With `C110_terminates` the program comes to its end. -/
theorem C110_undisturbed_partial (m : Model ℝ) (ae : Int) (hm : WellFormed m ae) (hp : Physical m) (ρ : ℝ) (hρ : 0 ≤ ρ)
    (size : ℕ) (order : ℕ → SetOrder) (s : Script ℝ ℂ) (hs : Steady s) (st0 st : Store ℝ ℂ) (ps : List (Running ℝ ℂ))
    (ranks : List (Rank ℝ ℂ)) (h : RankReach m (KindRelative ρ) size order s st0 st ps ranks) (ha : Alone s size st0 ps) :
    (∀ p ∈ ranks, ∀ x ∈ p.said, ∃ a, x = .ok a) ∧
    ((∃ p ∈ ranks, ¬ Rank.Done p) → ∃ i p, ranks[i]? = some p ∧ Rank.Ready ranks i p st) ∧
    ∀ i p, ranks[i]? = some p → Rank.Done p → p.rest = .stop (.ok ()) ∧ List.Forall₂ (fun c x => ∃ a, x = .ok a ∧
      RankExpected m ae (toleranceTo m ρ s.source.solverRoot) i c a) s.calls p.said := by
  have own := rankReach_own hm hp (falls_residual m hρ) (good_relative hm hp hρ) hs h ha
  have behind := rankReach_behind h
  have done : ∀ (i : Nat) p, ranks[i]? = some p → ∀ r, p.rest = .stop r → r = .ok () ∧ p.said.length = s.calls.length ∧
      p.sent.length = (gridsOf s.calls).length := by
    intro i p hi r hr
    obtain ⟨h1, h2, C, h0, h3⟩ := own i p hi
    rw [hr] at h3
    cases r with
    | error e => exact h3.elim
    | ok u => exact ⟨rfl, h3⟩
  have more : ∀ (i : Nat) p, ranks[i]? = some p → ∀ msg k, p.rest = .gather msg k → p.sent.length < (gridsOf s.calls).length := by
    intro i p hi msg k hr
    obtain ⟨h1, h2, C, h0, h3⟩ := own i p hi
    rw [hr] at h3
    exact h3.2.1
  have saidOk : ∀ (i : Nat) p, ranks[i]? = some p → ∀ x ∈ p.said, ∃ a, x = .ok a := by
    intro i p hi x hx
    obtain ⟨j, hj⟩ := List.getElem?_of_mem hx
    exact (own i p hi).said j x hj
  refine ⟨fun p hp' => ?_, ?_, fun i p hi hd => ?_⟩
  · obtain ⟨i, hi⟩ := List.getElem?_of_mem hp'
    exact saidOk i p hi
  · rintro ⟨q, hq, hnd⟩
    obtain ⟨j, hj⟩ := List.getElem?_of_mem hq
    have hlt := (List.getElem?_eq_some_iff.1 hj).1
    obtain ⟨p0, h0⟩ : ∃ p0, ranks[0]? = some p0 := ⟨_, List.getElem?_eq_getElem (by omega)⟩
    -- a rank that is neither at its end nor in `gather` can move
    have free : ∀ (i : Nat) p, ranks[i]? = some p → ¬ Rank.Done p → (∀ msg k, p.rest ≠ .gather msg k) → Rank.Ready ranks i p st := by
      intro i p hi hnd hng
      refine ⟨?_, fun msg k hr => absurd hr (hng msg k)⟩
      unfold Rank.move
      cases hr : p.rest with
      | stop r => exact absurd ⟨r, hr⟩ hnd
      | read f k => simp
      | write f k => simp
      | say b k => simp
      | gather msg k => exact absurd hr (hng msg k)
    by_cases hd0 : Rank.Done p0
    · obtain ⟨r, hr⟩ := hd0
      refine ⟨j, q, hj, free j q hj hnd (fun msg k hg => ?_)⟩
      have h1 := more j q hj msg k hg
      have h2 := (done 0 p0 h0 r hr).2.2
      have h3 := behind p0 h0 j q hj
      omega
    · by_cases hg0 : ∃ msg k, p0.rest = .gather msg k
      · obtain ⟨msg0, k0, hg0⟩ := hg0
        cases ho : (ranks.drop 1).mapM (fun q => q.sent[p0.sent.length]?) with
        | some others =>
          refine ⟨0, p0, h0, ?_, fun msg k hr => ⟨p0, msg0, k0, h0, hg0, rfl⟩⟩
          unfold Rank.move
          simp only [hg0, if_true, ho]
          simp
        | none =>
          obtain ⟨q', hq', hnone⟩ := mapM_none ho
          obtain ⟨l, hl⟩ := List.getElem?_of_mem hq'
          rw [List.getElem?_drop] at hl
          have hlen : q'.sent.length ≤ p0.sent.length := by
            rwa [List.getElem?_eq_none_iff] at hnone
          have heq := le_antisymm (behind p0 h0 _ q' hl) hlen
          have hm0 := more 0 p0 h0 msg0 k0 hg0
          by_cases hd : Rank.Done q'
          · obtain ⟨r, hr⟩ := hd
            have := (done _ q' hl r hr).2.2
            omega
          · by_cases hg : ∃ msg k, q'.rest = .gather msg k
            · obtain ⟨msg', k', hg'⟩ := hg
              refine ⟨1 + l, q', hl, ?_, fun msg k hr => ⟨p0, msg0, k0, h0, hg0, heq⟩⟩
              unfold Rank.move
              simp [hg']
            · exact ⟨1 + l, q', hl, free _ q' hl hd (fun msg k hr => hg ⟨msg, k, hr⟩)⟩
      · exact ⟨0, p0, h0, free 0 p0 h0 hd0 (fun msg k hr => hg0 ⟨msg, k, hr⟩)⟩
  · obtain ⟨r, hr⟩ := hd
    obtain ⟨rfl, h1, -⟩ := done i p hi r hr
    refine ⟨hr, List.forall₂_iff_get.2 ⟨h1.symm, fun j hj hj' => ?_⟩⟩
    obtain ⟨a, ha'⟩ := saidOk i p hi (p.said.get ⟨j, hj'⟩) (List.get_mem _ _)
    refine ⟨a, ha', C110_accuracy m ae hm hp ρ hρ size order s st0 st ps ranks h i p hi j _ a (List.getElem?_eq_getElem hj) ?_ ?_⟩
    · rw [List.getElem?_eq_getElem hj']
      exact congrArg some ha'
    · have := hs.calls _ (List.getElem_mem hj)
      rw [List.get_eq_getElem]
      revert this
      cases s.calls[j] with
      | solve q => exact id
      | grid k w eta => exact fun h => h.1

/-- **C110**, completion. In the situation of `C110_undisturbed_partial` the ranks can always go on to their ends. -/
theorem C110_completes {m : Model ℝ} {ae : Int} (hm : WellFormed m ae) (hp : Physical m) {ρ : ℝ} (hρ : 0 ≤ ρ)
    {size : ℕ} {order : ℕ → SetOrder} {s : Script ℝ ℂ} (hs : Steady s) {st0 st : Store ℝ ℂ} {ps : List (Running ℝ ℂ)}
    {ranks : List (Rank ℝ ℂ)} (h : RankReach m (KindRelative ρ) size order s st0 st ps ranks) (ha : Alone s size st0 ps) :
    ∃ st' ranks', RankReach m (KindRelative ρ) size order s st0 st' ps ranks' ∧ ∀ p ∈ ranks', Rank.Done p := by
  classical
  by_contra hno
  push Not at hno
  let X := {x : Store ℝ ℂ × List (Rank ℝ ℂ) // RankReach m (KindRelative ρ) size order s st0 x.1 ps x.2}
  have next : ∀ x : X, ∃ (y : X) (i : ℕ) (p p' : Rank ℝ ℂ), x.1.2[i]? = some p ∧ p.move x.1.2 i x.1.1 = some (y.1.1, p') ∧
      y.1.2 = x.1.2.set i p' := by
    rintro ⟨⟨st, ranks⟩, hx⟩
    obtain ⟨p, hp1, hp2⟩ := hno st ranks hx
    obtain ⟨i, q, hi, hmv, -⟩ := (C110_undisturbed_partial m ae hm hp ρ hρ size order s hs st0 st ps ranks hx ha).2.1 ⟨p, hp1, hp2⟩
    obtain ⟨⟨st', q'⟩, hq⟩ := Option.ne_none_iff_exists'.1 hmv
    exact ⟨⟨⟨st', ranks.set i q'⟩, RankReach.rank i q q' hx hi hq⟩, i, q, q', hi, hq, rfl⟩
  choose f g p p' h1 h2 h3 using next
  let x : ℕ → X := fun t => f^[t] ⟨⟨st, ranks⟩, h⟩
  have hx : ∀ t, x (t + 1) = f (x t) := fun t => Function.iterate_succ_apply' f t _
  obtain ⟨T, hT⟩ := C110_terminates (fun t => (x t).1.1) (fun t => (x t).1.2) (fun t => some (g (x t)))
    (fun t h => by cases h) (fun t i hi => by
      cases hi
      refine ⟨p (x t), (f (x t)).1.1, p' (x t), h1 _, h2 _, ?_⟩
      simp only [hx]
      exact h3 (x t))
  exact absurd (hT T le_rfl) (by simp)

/-! ### programs that are disturbed -/

theorem drive_rank {m : Model ℝ} {solvers : SolverKind ℂ → Prop} {size : ℕ} {order : ℕ → SetOrder} {s : Script ℝ ℂ}
    {st0 st : Store ℝ ℂ} {ps : List (Running ℝ ℂ)} {ranks : List (Rank ℝ ℂ)}
    (h : RankReach m solvers size order s st0 st ps ranks) {i : ℕ} {said : List (RankOut ℂ)} {sent : List (List (Option ℂ))}
    {α : Type} {x : Act ℝ ℂ α} {k : Py α → RankTask ℝ ℂ} (hi : ranks[i]? = some ⟨said, sent, RankTask.plain x k⟩)
    {I : Store ℝ ℂ → Prop} (hI : I st) {Q : α → Prop} (hx : Todo.Quiet I (fun _ => False) Q x) :
    ∃ st' a, RankReach m solvers size order s st0 st' ps (ranks.set i ⟨said, sent, k (.ok a)⟩) ∧ I st' ∧ Q a := by
  replace hx := hx 0
  unfold RankTask.plain at hi
  induction x generalizing st ranks with
  | stop r => cases r with
    | error e => exact hx.elim
    | ok a =>
      refine ⟨st, a, ?_, hI, hx.2⟩
      have e : ranks.set i ⟨said, sent, k (.ok a)⟩ = ranks := set_same hi
      rw [e]
      exact h
  | read f h' ih =>
    have hl := (List.getElem?_eq_some_iff.1 hi).1
    have h1 := RankReach.rank i _ _ h hi (show _ = some (st, _) from rfl)
    obtain ⟨st', a, h2, h3, h4⟩ := ih (f st) h1 (by simp [hl]) hI (hx st hI)
    exact ⟨st', a, by simpa using h2, h3, h4⟩
  | write f h' ih =>
    have hl := (List.getElem?_eq_some_iff.1 hi).1
    have h1 := RankReach.rank i _ _ h hi (show _ = some (f st, _) from rfl)
    obtain ⟨st', a, h2, h3, h4⟩ := ih h1 (by simp [hl]) (hx.1 st hI) hx.2
    exact ⟨st', a, by simpa using h2, h3, h4⟩
  | say a h' ih => exact hx.1.elim

/-- one point of a rank, after the second look at the result file -/
def pointRead (k : Py (List (Option ℂ)) → RankTask ℝ ℂ) : Option (File (Option ℂ)) → RankTask ℝ ℂ
  | none => k (.error .fileNotFound)
  | some .torn => k (.error .eofError)
  | some (.full G) => k (.ok [G])

/-- one point of a rank, after the first look at the result file -/
noncomputable def pointLook (v : Option ℂ) (r : String) (p : Point ℝ) (k : Py (List (Option ℂ)) → RankTask ℝ ℂ) :
    Option (File (Option ℂ)) → RankTask ℝ ℂ
  | none =>
    .write (fun st => { st with results := fun q => if q = r then (st.results r).set (cacheKey p) .torn else st.results q })
      (.write (fun st => { st with results := fun q => if q = r then (st.results r).set (cacheKey p) (.full v) else st.results q })
        (k (.ok [v])))
  | some _ => .read (fun st => (st.results r).get? (cacheKey p)) (pointRead k)

theorem solveAll_one {raw : Point ℝ → Py (Option ℂ)} {p : Point ℝ} {v : Option ℂ} (h : raw p = .ok v) (r : String)
    (k : Py (List (Option ℂ)) → RankTask ℝ ℂ) :
    RankTask.plain (Act.solveAll raw (some r) [p]) k =
      .read (fun st => (st.results r).get? (cacheKey p)) (pointLook v r p k) := by
  simp only [Act.solveAll, Act.solve, h]
  refine congrArg (Task.read _) (funext fun there => ?_)
  cases there with
  | none => rfl
  | some f =>
    refine congrArg (Task.read _) (funext fun x => ?_)
    rcases x with _ | _ | _ <;> rfl

/-- what follows the loop over the points, in a program with more calls -/
noncomputable def afterLoop (size i : Nat) (raw : Point ℝ → Py (Option ℂ)) (root : Option String) (nk nw : Nat) (cs : List (Call ℝ)) :
    Py (List (Option ℂ)) → RankTask ℝ ℂ
  | .error e => .say (.error e) (.stop (.error e))
  | .ok s => .gather s (fun all => match all with
    | none => .say (.ok none) (RankTask.calls size i raw root cs)
    | some all => match reshapeGrid all.flatten nk nw with
      | .error e => .say (.error e) (.stop (.error e))
      | .ok M => .say (.ok (some (.matrix M))) (RankTask.calls size i raw root cs))

theorem calls_two (raw : Point ℝ → Py (Option ℂ)) (root : Option String) (x y z eta : ℝ) (cs : List (Call ℝ)) (i : Nat)
    (q : ℝ) (hq : chunkJobs [(x, y), (x, z)] 2 i = .ok [(x, q)]) :
    RankTask.calls 2 i raw root (.grid (.seq [x]) (.seq [y, z]) eta :: cs) =
      RankTask.plain (Act.solveAll raw root [⟨x, q, eta⟩]) (afterLoop 2 i raw root 1 2 cs) := by
  rw [RankTask.calls, RankTask.call]
  simp only [floatToList, jobList, List.flatMap_cons, List.flatMap_nil, List.map_cons, List.map_nil, List.append_nil, hq]
  refine congrArg _ (funext fun r => ?_)
  cases r with
  | error e => rfl
  | ok s =>
    refine congrArg (Task.gather s) (funext fun all => ?_)
    cases all with
    | none => rfl
    | some all =>
      simp only [List.length_cons, List.length_nil]
      cases reshapeGrid all.flatten 1 2 <;> rfl

/-- **C110** fails for programs in which a point moves to another rank: two ranks compute the grid `[0] × [0, 1]`, and then
the same points in the other order. Each rank alone, and both one after the other, find complete files. Still there is an order
of the steps in which rank 1 is through with the first call early, finds the file that rank 0 has just opened, and raises
`EOFError`; rank 0 then waits forever in the second `gather`. -/
theorem C110_calls_race_fails (m : Model ℝ) (ae : Int) (hm : WellFormed m ae) (hp : Physical m) (order : ℕ → SetOrder) :
    ∃ s : Script ℝ ℂ, Steady s ∧ s.calls = [.grid (.seq [0]) (.seq [0, 1]) 1, .grid (.seq [0]) (.seq [1, 0]) 1] ∧
      ∃ st p0 p1, RankReach m (KindRelative 0) 2 order s ⟨fun _ => none, fun _ => []⟩ st [] [p0, p1] ∧
        p1.said = [.ok none, .error .eofError] ∧ Rank.Done p1 ∧ ¬ Rank.Done p0 ∧
        ∀ st', p0.move [p0, p1] 0 st' = none := by
  let P0 : Point ℝ := ⟨0, 0, 1⟩
  let P1 : Point ℝ := ⟨0, 1, 1⟩
  have key : cacheKey P0 ≠ cacheKey P1 := by
    intro h
    have := (C31_key_near _ _ h).2.1
    norm_num [P0, P1] at this
  let c2 : Call ℝ := .grid (.seq [0]) (.seq [1, 0]) 1
  let s : Script ℝ ℂ := ⟨order 0, .dense, .fresh none 0 (some "b"), [.grid (.seq [0]) (.seq [0, 1]) 1, c2]⟩
  have hs : Steady s := ⟨⟨none, 0, some "b", rfl⟩, trivial, fun c hc => by
    rcases List.mem_cons.1 hc with rfl | hc
    · exact ⟨by norm_num, by simp [gridPoints], by simp [gridPoints]⟩
    · rw [List.mem_singleton.1 hc]
      exact ⟨by norm_num, by simp [gridPoints], by simp [gridPoints]⟩⟩
  have quiet : ∀ σ J, Todo.Quiet (Act.FineAll m J) (fun _ => False) (GoodObj m s.kind) (Act.construct m { s with order := σ }) :=
    fun σ J => Act.construct_quiet (builds hm) { s with order := σ } (Or.inr hs.source)
  refine ⟨s, hs, rfl, ?_⟩
  let E : Store ℝ ℂ := ⟨fun _ => none, fun _ => []⟩
  let prog : ℕ → RankTask ℝ ℂ := fun i => RankTask.program realPhys m 2 i { s with order := order i }
  let At := RankReach m (KindRelative 0) 2 order s E
  have h0 : At E [] [⟨[], [], prog 0⟩, ⟨[], [], prog 1⟩] :=
    RankReach.start (before := []) (Reach.empty ⟨fun _ => rfl, fun _ => rfl⟩) (fun p hp => by cases hp) trivial
  -- rank 0 opens the file of its first point
  obtain ⟨st1, o, h1, i1, q1⟩ := drive_rank h0 (i := 0) rfl (I := Act.FineAll m (fun res => res "b" = []))
    ⟨fun q => FineDir.empty m, rfl⟩ (quiet _ _)
  obtain ⟨G0, hG0⟩ := good_answers hm hp _ hs.kind o q1 P0 (by norm_num [P0])
  obtain ⟨G1, hG1⟩ := good_answers hm hp _ hs.kind o q1 P1 (by norm_num [P1])
  let k0 := afterLoop 2 0 (o.raw realPhys) (some "b") 1 2 [c2]
  let look : Point ℝ → Store ℝ ℂ → Option (File (Option ℂ)) := fun p st => (st.results "b").get? (cacheKey p)
  have h2 : At st1 [] [⟨[], [], .read (look P0) (pointLook (some G0) "b" P0 k0)⟩, ⟨[], [], prog 1⟩] := by
    rw [← solveAll_one hG0, ← calls_two (o.raw realPhys) (some "b") 0 0 1 1 [c2] 0 0 rfl]
    exact h1
  have h3 : At st1 [] [⟨[], [], pointLook (some G0) "b" P0 k0 none⟩, ⟨[], [], prog 1⟩] := by
    have e : look P0 st1 = none := by simp only [look]; rw [i1.2]; rfl
    rw [← e]
    exact RankReach.rank 0 _ _ h2 rfl rfl
  let put : Point ℝ → File (Option ℂ) → Store ℝ ℂ → Store ℝ ℂ := fun p v st =>
    { st with results := fun q => if q = "b" then (st.results "b").set (cacheKey p) v else st.results q }
  let r0 : Rank ℝ ℂ := ⟨[], [], .write (put P0 (.full (some G0))) (k0 (.ok [some G0]))⟩
  have h4 : At (put P0 .torn st1) [] [r0, ⟨[], [], prog 1⟩] := RankReach.rank 0 _ _ h3 rfl rfl
  -- rank 1 goes through the first call
  obtain ⟨st2, o', h5, i2, q2⟩ := drive_rank h4 (i := 1) rfl
    (I := Act.FineAll m (fun res => (res "b").get? (cacheKey P0) = some .torn ∧ (res "b").get? (cacheKey P1) = none))
    ⟨i1.1, by simp [put, Dict.get?_set], by simp [put, Dict.get?_set, key, i1.2, Dict.get?]⟩ (quiet _ _)
  obtain ⟨H0, hH0⟩ := good_answers hm hp _ hs.kind o' q2 P0 (by norm_num [P0])
  obtain ⟨H1, hH1⟩ := good_answers hm hp _ hs.kind o' q2 P1 (by norm_num [P1])
  let k1 := afterLoop 2 1 (o'.raw realPhys) (some "b") 1 2 [c2]
  have h6 : At st2 [] [r0, ⟨[], [], .read (look P1) (pointLook (some H1) "b" P1 k1)⟩] := by
    rw [← solveAll_one hH1, ← calls_two (o'.raw realPhys) (some "b") 0 0 1 1 [c2] 1 1 rfl]
    exact h5
  have h7 : At st2 [] [r0, ⟨[], [], pointLook (some H1) "b" P1 k1 none⟩] := by
    have e : look P1 st2 = none := i2.2.2
    rw [← e]
    exact RankReach.rank 1 _ _ h6 rfl rfl
  have h8 := RankReach.rank 1 _ _ h7 rfl rfl
  have h9 := RankReach.rank 1 _ _ h8 rfl rfl
  have h10 := RankReach.rank 1 _ _ h9 rfl rfl
  have h11 := RankReach.rank 1 _ _ h10 rfl rfl
  let st3 := put P1 (.full (some H1)) (put P1 .torn st2)
  have t0 : look P0 st3 = some .torn := by
    simp only [look, st3, put, if_true, Dict.get?_set, if_neg key.symm]
    exact i2.2.1
  have t1 : look P1 st3 = some (.full (some H1)) := by
    simp [look, st3, put, Dict.get?_set]
  -- the second call of rank 1
  let n1 := afterLoop 2 1 (o'.raw realPhys) (some "b") 1 2 []
  have h12 : At st3 [] [r0, ⟨[.ok none], [[some H1]], .read (look P0) (pointLook (some H0) "b" P0 n1)⟩] := by
    rw [← solveAll_one hH0, ← calls_two (o'.raw realPhys) (some "b") 0 1 0 1 [] 1 0 rfl]
    exact h11
  have h13 : At st3 [] [r0, ⟨[.ok none], [[some H1]], .read (look P0) (pointRead n1)⟩] := by
    have e : pointLook (some H0) "b" P0 n1 (look P0 st3) = .read (look P0) (pointRead n1) := by rw [t0]; rfl
    rw [← e]
    exact RankReach.rank 1 _ _ h12 rfl rfl
  have h14 : At st3 [] [r0, ⟨[.ok none], [[some H1]], .say (.error .eofError) (.stop (.error .eofError))⟩] := by
    have e : pointRead n1 (look P0 st3) = .say (.error .eofError) (.stop (.error .eofError)) := by rw [t0]; rfl
    rw [← e]
    exact RankReach.rank 1 _ _ h13 rfl rfl
  let p1 : Rank ℝ ℂ := ⟨[.ok none, .error .eofError], [[some H1]], .stop (.error .eofError)⟩
  have h15 : At st3 [] [r0, p1] := RankReach.rank 1 _ _ h14 rfl rfl
  -- rank 0 goes on
  have h16 := RankReach.rank 0 _ _ h15 rfl rfl
  have h17 := RankReach.rank 0 _ _ h16 rfl rfl
  have h18 := RankReach.rank 0 _ _ h17 rfl rfl
  let st4 := put P0 (.full (some G0)) st3
  let n0 := afterLoop 2 0 (o.raw realPhys) (some "b") 1 2 []
  let a : RankOut ℂ := .ok (some (.matrix [[some G0, some H1]]))
  have t2 : look P1 st4 = some (.full (some H1)) := by
    simp only [look, st4, put, if_true, Dict.get?_set, if_neg key]
    exact t1
  have h19 : At st4 [] [⟨[a], [[some G0]], .read (look P1) (pointLook (some G1) "b" P1 n0)⟩, p1] := by
    rw [← solveAll_one hG1, ← calls_two (o.raw realPhys) (some "b") 0 1 0 1 [] 0 1 rfl]
    exact h18
  have h20 : At st4 [] [⟨[a], [[some G0]], .read (look P1) (pointRead n0)⟩, p1] := by
    have e : pointLook (some G1) "b" P1 n0 (look P1 st4) = .read (look P1) (pointRead n0) := by rw [t2]; rfl
    rw [← e]
    exact RankReach.rank 0 _ _ h19 rfl rfl
  have h21 : At st4 [] [⟨[a], [[some G0]], n0 (.ok [some H1])⟩, p1] := by
    have e : pointRead n0 (look P1 st4) = n0 (.ok [some H1]) := by rw [t2]; rfl
    rw [← e]
    exact RankReach.rank 0 _ _ h20 rfl rfl
  exact ⟨st4, _, _, h21, rfl, ⟨_, rfl⟩, (by rintro ⟨r, hr⟩; cases hr), fun st' => rfl⟩

/-- a rank reads a pickled file, which is not incomplete -/
theorem rank_load {m : Model ℝ} {solvers : SolverKind ℂ → Prop} {size : ℕ} {order : ℕ → SetOrder} {s : Script ℝ ℂ}
    {st0 st : Store ℝ ℂ} {ps : List (Running ℝ ℂ)} {ranks : List (Rank ℝ ℂ)}
    (h : RankReach m solvers size order s st0 st ps ranks) {i : ℕ} {said : List (RankOut ℂ)} {sent : List (List (Option ℂ))}
    {α β γ δ : Type} {r : String} {get : Dir ℝ → Option (File β)} {f : Option β → Act ℝ ℂ α} {C : α → Act ℝ ℂ γ}
    {D : γ → Act ℝ ℂ δ} {k : Py δ → RankTask ℝ ℂ}
    (hi : ranks[i]? = some ⟨said, sent, RankTask.plain (((Act.load r get >>= f) >>= C) >>= D) k⟩)
    (hne : get (st.fs.at r) ≠ some .torn) :
    ∃ x, RankReach m solvers size order s st0 st ps (ranks.set i ⟨said, sent, RankTask.plain ((f x >>= C) >>= D) k⟩) := by
  obtain ⟨k1, k2, e1, e2, e3, e4⟩ : ∃ k1 k2, RankTask.plain (((Act.load r get >>= f) >>= C) >>= D) k =
      .read (fun st => get (st.fs.at r)) k1 ∧ k1 none = RankTask.plain ((f none >>= C) >>= D) k ∧
      (∀ b, k1 (some (.full b)) = .read (fun st => get (st.fs.at r)) k2) ∧
      ∀ b, k2 (some (.full b)) = RankTask.plain ((f (some b) >>= C) >>= D) k :=
    ⟨_, _, rfl, rfl, fun _ => rfl, fun _ => rfl⟩
  have hl := (List.getElem?_eq_some_iff.1 hi).1
  rw [e1] at hi
  have h1 := RankReach.rank i _ _ h hi (show _ = some (st, _) from rfl)
  dsimp only at h1
  cases hg : get (st.fs.at r) with
  | none =>
    rw [hg, e2] at h1
    exact ⟨none, h1⟩
  | some y => cases y with
    | torn => exact absurd hg hne
    | full b =>
      rw [hg, e3] at h1
      have h2 := RankReach.rank i _ _ h1 (List.getElem?_set_self hl) (show _ = some (st, _) from rfl)
      dsimp only at h2
      rw [hg, e4, List.set_set] at h2
      exact ⟨some b, h2⟩

/-- **C110** fails for programs that reload a checkpoint: on every disk on which the checkpoint in the directory is complete,
two ranks are started that construct the solver from the directory alone. Rank 1 may raise `JSONDecodeError` (a `ValueError`),
because rank 0, having read the checkpoint, writes `model.json` anew. -/
theorem C110_resume_race_fails (m : Model ℝ) (solvers : SolverKind ℂ → Prop) (hd : solvers .dense) (order : ℕ → SetOrder)
    (cs : List (Call ℝ)) (st0 : Store ℝ ℂ) (before : List (Running ℝ ℂ)) (h : Reach m solvers st0 before) (r : String)
    (m' : Model ℝ) (hm : (st0.fs.at r).model = some (.full m')) (hg : (st0.fs.at r).gens ≠ some .torn)
    (hf : (st0.fs.at r).fargs ≠ some .torn) (he : (st0.fs.at r).eqs ≠ some .torn) :
    ∃ st p0 p1, RankReach m solvers 2 order ⟨order 0, .dense, .resume r, cs⟩ st0 st [] [p0, p1] ∧
      p1.said = [.error .valueError] := by
  let s : Script ℝ ℂ := ⟨order 0, .dense, .resume r, cs⟩
  let prog : ℕ → RankTask ℝ ℂ := fun i => RankTask.program realPhys m 2 i { s with order := order i }
  have h0 : RankReach m solvers 2 order s st0 st0 [] [⟨[], [], prog 0⟩, ⟨[], [], prog 1⟩] :=
    RankReach.start h (fun p hp => by cases hp) hd
  let mk : Store ℝ ℂ → Store ℝ ℂ := fun st => { st with fs := st.fs.put r (st.fs.at r) }
  let torn : Store ℝ ℂ → Store ℝ ℂ := fun st =>
    { st with fs := st.fs.put r ({ st.fs.at r with model := some .torn } : Dir ℝ) }
  have same : (mk st0).fs.at r = st0.fs.at r := by simp [mk, FS.at, FS.put]
  let T : Act ℝ ℂ (Sys ℝ) := do
    let g ← Act.load r Dir.gens
    let f ← Act.load r Dir.fargs
    let e ← Act.load r Dir.eqs
    Act.init (order 0) ⟨some r, m', g, f, e, 1000000⟩
  obtain ⟨K0, C, D, k, k', e1, e2, e3⟩ : ∃ (K0 : Py (SolverObj ℝ ℂ) → RankTask ℝ ℂ) (C : Sys ℝ → Act ℝ ℂ (Sys ℝ))
      (D : Sys ℝ → Act ℝ ℂ (SolverObj ℝ ℂ)), ∃ k k', prog 0 = .write mk (.read (fun st => (st.fs.at r).model) k) ∧
      k (some (.full m')) = .read (fun st => (st.fs.at r).model) k' ∧
      k' (some (.full m')) = RankTask.plain ((T >>= C) >>= D) K0 := ⟨_, _, _, _, _, rfl, rfl, rfl⟩
  have h1 := RankReach.rank 0 _ _ (by rw [e1] at h0; exact h0) rfl rfl
  have h2 := RankReach.rank 0 _ _ h1 rfl rfl
  have h3 : RankReach m solvers 2 order s st0 (mk st0) [] [⟨[], [], k (some (.full m'))⟩, ⟨[], [], prog 1⟩] := by
    rw [← hm, ← same]; exact h2
  rw [e2] at h3
  have h4 := RankReach.rank 0 _ _ h3 rfl rfl
  have h5 : RankReach m solvers 2 order s st0 (mk st0) [] [⟨[], [], k' (some (.full m'))⟩, ⟨[], [], prog 1⟩] := by
    rw [← hm, ← same]; exact h4
  rw [e3] at h5
  obtain ⟨g, h6⟩ := rank_load h5 (i := 0) rfl (by rw [same]; exact hg)
  obtain ⟨f, h7⟩ := rank_load h6 (i := 0) rfl (by rw [same]; exact hf)
  obtain ⟨e, h8⟩ := rank_load h7 (i := 0) rfl (by rw [same]; exact he)
  have h9 := RankReach.rank 0 _ _ h8 rfl rfl
  have h10 := RankReach.rank 0 _ _ h9 rfl rfl
  obtain ⟨p0, st3, hst3, h11⟩ : ∃ p0 st3, (mk st3).fs.at r = { st0.fs.at r with model := some .torn } ∧
      RankReach m solvers 2 order s st0 st3 [] [p0, ⟨[], [], prog 1⟩] :=
    ⟨_, _, by simp [mk, FS.at, FS.put], h10⟩
  have t : ((mk st3).fs.at r).model = some .torn := by rw [hst3]
  obtain ⟨k2, k3, e4, e5, e6⟩ : ∃ k k', prog 1 = .write mk (.read (fun st => (st.fs.at r).model) k) ∧
      k (some .torn) = .read (fun st => (st.fs.at r).model) k' ∧
      k' (some .torn) = .say (.error .valueError) (.stop (.error .valueError)) := ⟨_, _, rfl, rfl, rfl⟩
  have h12 := RankReach.rank 1 _ _ (by rw [e4] at h11; exact h11) rfl rfl
  have h13 := RankReach.rank 1 _ _ h12 rfl rfl
  have h14 : RankReach m solvers 2 order s st0 (mk st3) [] [p0, ⟨[], [], k2 (some .torn)⟩] := by
    rw [← t]; exact h13
  rw [e5] at h14
  have h15 := RankReach.rank 1 _ _ h14 rfl rfl
  have h16 : RankReach m solvers 2 order s st0 (mk st3) [] [p0, ⟨[], [], k3 (some .torn)⟩] := by
    rw [← t]; exact h15
  rw [e6] at h16
  exact ⟨_, _, _, RankReach.rank 1 _ _ h16 rfl rfl, rfl⟩

/-- the hypotheses are met after a program has written `model.json`, here one that has not come further -/
example (m : Model ℝ) (σ : SetOrder) : ∃ st before m', Reach m (KindRelative 0) st before ∧
    (st.fs.at "a").model = some (.full m') ∧ (st.fs.at "a").gens ≠ some .torn ∧ (st.fs.at "a").fargs ≠ some .torn ∧
    (st.fs.at "a").eqs ≠ some .torn := by
  let s : Script ℝ ℂ := ⟨σ, .dense, .fresh (some "a") 1000000 none, []⟩
  have h0 : Reach m (KindRelative 0) ⟨fun _ => none, fun _ => []⟩ [⟨s, [], Act.program realPhys m s⟩] :=
    Reach.start s (Reach.empty ⟨fun _ => rfl, fun _ => rfl⟩) trivial
  have h1 := Reach.step 0 _ (Reach.step 0 _ (Reach.step 0 _ h0 rfl) rfl) rfl
  exact ⟨_, _, m.jsonRT, h1, rfl, nofun, nofun, nofun⟩

/-- For one grid, whose points have different file names, on a disk without incomplete files, no files are shared. -/
theorem alone_one_grid {s : Script ℝ ℂ} {k w : GridArg ℝ} {eta : ℝ} (hc : s.calls = [.grid k w eta])
    (hn : ((Call.points (.grid k w eta)).map cacheKey).Nodup) (size : ℕ) (st0 : Store ℝ ℂ)
    (hf : ∀ r c, (st0.results r).get? c ≠ some .torn) : Alone s size st0 [] := by
  refine ⟨?_, (fun i _ p hp => by cases hp), fun i _ r c _ => hf r c⟩
  let L := Call.points (.grid k w eta)
  let f := fun i => i * (L.length / size) + min i (L.length % size)
  have mono : ∀ i j : ℕ, i < j → f (i + 1) ≤ f j := fun i j h => by
    refine Nat.add_le_add (Nat.mul_le_mul_right _ h) ?_
    omega
  have place : ∀ i p, p ∈ Call.share size i (.grid k w eta) → ∃ t : ℕ, f i ≤ t ∧ t < f (i + 1) ∧ L[t]? = some p := by
    intro i p hp
    obtain ⟨t, ht⟩ := List.mem_iff_getElem?.1 hp
    simp only [Call.share, List.getElem?_take, List.getElem?_drop] at ht
    split at ht
    · next h =>
      refine ⟨f i + t, by omega, ?_, ht⟩
      simp only [f, L]
      omega
    · cases ht
  have apart : ∀ i j : ℕ, i < j → ∀ r c, RankUses s size i r c → ¬ RankUses s size j r c := by
    rintro i j hij r c ⟨-, c1, m1, p1, hp1, e1⟩ ⟨-, c2, m2, p2, hp2, e2⟩
    rw [hc] at m1 m2
    rw [List.mem_singleton.1 m1] at hp1
    rw [List.mem_singleton.1 m2] at hp2
    obtain ⟨t1, a1, b1, g1⟩ := place i p1 hp1
    obtain ⟨t2, a2, b2, g2⟩ := place j p2 hp2
    have := mono i j hij
    have hl : t1 < (L.map cacheKey).length := by
      rw [List.length_map]; exact (List.getElem?_eq_some_iff.1 g1).1
    have : t1 = t2 := (List.getElem?_inj hl hn).1 (by rw [List.getElem?_map, List.getElem?_map, g1, g2]; simp [e1, e2])
    omega
  intro i _ j _ hij r c h1 h2
  rcases Nat.lt_or_gt_of_ne hij with h | h
  · exact apart i j h r c h1 h2
  · exact apart j i h r c h2 h1

/-- the hypotheses are met: two ranks construct the same system in one directory, share two frequencies, and put their results
in the same directory; rank 0 prints both numbers and rank 1 prints `None` -/
example (m : Model ℝ) (ae : Int) (hm : WellFormed m ae) (hp : Physical m) (order : ℕ → SetOrder) :
    ∃ st p0 p1 G G', RankReach m (KindRelative 0) 2 order
        ⟨order 0, .dense, .fresh (some "a") 1000000 (some "a"), [.grid (.seq [0]) (.seq [0, 1]) 1]⟩
        ⟨fun _ => none, fun _ => []⟩ st [] [p0, p1] ∧
      p0.said = [.ok (some (.matrix [[some G, some G']]))] ∧ p1.said = [.ok none] := by
  let s : Script ℝ ℂ := ⟨order 0, .dense, .fresh (some "a") 1000000 (some "a"), [.grid (.seq [0]) (.seq [0, 1]) 1]⟩
  have hs : Steady s := ⟨⟨_, _, _, rfl⟩, trivial, fun c hc => by
    rw [List.mem_singleton.1 hc]
    exact ⟨by norm_num, by simp [gridPoints], by simp [gridPoints]⟩⟩
  have key : cacheKey (⟨0, 0, 1⟩ : Point ℝ) ≠ cacheKey (⟨0, 1, 1⟩ : Point ℝ) := by
    intro h
    have := (C31_key_near _ _ h).2.1
    norm_num at this
  have ha : Alone s 2 ⟨fun _ => none, fun _ => []⟩ [] := alone_one_grid rfl (by
    change [cacheKey (⟨0, 0, 1⟩ : Point ℝ), cacheKey (⟨0, 1, 1⟩ : Point ℝ)].Nodup
    simpa using key) 2 _ (fun r c h => by cases h)
  have h0 : RankReach m (KindRelative 0) 2 order s ⟨fun _ => none, fun _ => []⟩ ⟨fun _ => none, fun _ => []⟩ []
      (startRanks realPhys m 2 order s) :=
    RankReach.start (before := []) (Reach.empty ⟨fun _ => rfl, fun _ => rfl⟩) (fun p hp => by cases hp) trivial
  obtain ⟨st, ranks, h1, hd⟩ := C110_completes hm hp le_rfl hs h0 ha
  have hl : ranks.length = 2 := (rankReach_track hm hp (falls_residual m le_rfl) (good_relative hm hp le_rfl) h1).2.2.1
  obtain ⟨p0, p1, rfl⟩ : ∃ p0 p1, ranks = [p0, p1] := List.length_eq_two.1 hl
  obtain ⟨-, -, fin⟩ := C110_undisturbed_partial m ae hm hp 0 le_rfl 2 order s hs _ st [] _ h1 ha
  have e0 := (fin 0 p0 rfl (hd _ (by simp))).2
  have e1 := (fin 1 p1 rfl (hd _ (by simp))).2
  simp only [s, List.forall₂_cons_left_iff, List.forall₂_nil_left_iff] at e0 e1
  obtain ⟨_, _, ⟨a, rfl, ha0⟩, rfl, e0⟩ := e0
  obtain ⟨_, _, ⟨b, rfl, hb0⟩, rfl, e1⟩ := e1
  cases b with
  | some b => exact absurd hb0.1 one_ne_zero
  | none =>
    cases a with
    | none => exact absurd rfl ha0
    | some a =>
      cases a with
      | value v => exact ha0.2.elim
      | matrix M =>
        obtain ⟨-, ks, ws, hk, hw, hM⟩ := ha0
        cases hk
        cases hw
        simp only [List.forall₂_cons_left_iff, List.forall₂_nil_left_iff] at hM
        obtain ⟨_, _, ⟨_, _, ⟨G, -, rfl, -⟩, ⟨_, _, ⟨G', -, rfl, -⟩, rfl, rfl⟩, rfl⟩, rfl, rfl⟩ := hM
        exact ⟨st, p0, p1, G, G', h1, e0, e1⟩

end GGCE.Props
