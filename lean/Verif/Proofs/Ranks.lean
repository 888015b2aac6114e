import Verif.Proofs.Parallel
import Verif.Model.Ranks

/-! Invariants of the ranks of an MPI program. -/

set_option linter.unusedSectionVars false

namespace GGCE

namespace Task
variable {S B M : Type}

/-- Whatever others do, as long as they keep `I` and the messages of rank `j` in its `gather` number `g` have the property
`Msg j g`: rank `i` of `size` keeps `I`, its messages have the property, its output number `n` has the property `P n`, and it
ends after `N` outputs and `G` calls of `gather` or with an exception in `E`. -/
def Safe (I : S → Prop) (P : Nat → B → Prop) (E : Err → Prop) (Msg : Nat → Nat → M → Prop) (size i N G : Nat) :
    Nat → Nat → Task S B M → Prop
  | n, g, .stop (.ok _) => n = N ∧ g = G
  | _, _, .stop (.error e) => E e
  | n, g, .read f k => ∀ s, I s → Safe I P E Msg size i N G n g (k (f s))
  | n, g, .write f k => (∀ s, I s → I (f s)) ∧ Safe I P E Msg size i N G n g k
  | n, g, .say b k => P n b ∧ Safe I P E Msg size i N G (n + 1) g k
  | n, g, .gather msg k => Msg i g msg ∧ g < G ∧ (i = 0 → ∀ all : List M, all.length = size →
      (∀ j msg', all[j]? = some msg' → Msg j g msg') → Safe I P E Msg size i N G n (g + 1) (k (some all))) ∧
      (i ≠ 0 → Safe I P E Msg size i N G n (g + 1) (k none))

/-- the same for a part of the disk that others leave alone, as `Todo.Own` -/
def Own {W : Type} (V : S → W) (I : S → Prop) (P : Nat → B → Prop) (E : Err → Prop) (Msg : Nat → Nat → M → Prop)
    (size i N G : Nat) : (W → Prop) → Nat → Nat → Task S B M → Prop
  | _, n, g, .stop (.ok _) => n = N ∧ g = G
  | _, _, _, .stop (.error e) => E e
  | C, n, g, .read f k => ∀ s, I s → C (V s) → Own V I P E Msg size i N G (fun w => w = V s) n g (k (f s))
  | C, n, g, .write f k => ∃ C' : W → Prop, (∀ s, I s → C (V s) → C' (V (f s))) ∧ Own V I P E Msg size i N G C' n g k
  | C, n, g, .say b k => P n b ∧ Own V I P E Msg size i N G C (n + 1) g k
  | C, n, g, .gather msg k => Msg i g msg ∧ g < G ∧ (i = 0 → ∀ all : List M, all.length = size →
      (∀ j msg', all[j]? = some msg' → Msg j g msg') → Own V I P E Msg size i N G C n (g + 1) (k (some all))) ∧
      (i ≠ 0 → Own V I P E Msg size i N G C n (g + 1) (k none))

/-- the rank never changes what `V` sees -/
def Keeps {W : Type} (V : S → W) : Task S B M → Prop
  | .stop _ => True
  | .read _ k => ∀ b, Keeps V (k b)
  | .write f k => (∀ s, V (f s) = V s) ∧ Keeps V k
  | .say _ k => Keeps V k
  | .gather _ k => ∀ a, Keeps V (k a)

variable {A α W : Type} {I : S → Prop} {P : Nat → B → Prop} {E E' : Err → Prop} {Msg : Nat → Nat → M → Prop}
  {size i N G n g : Nat} {V : S → W} {C D : W → Prop} {out : A → B}

theorem Safe.into {Q : α → Prop} {x : Todo S A α} {k : Py α → Task S B M} (hx : Todo.Quiet I E' Q x)
    (h : ∀ a, Q a → Safe I P E Msg size i N G n g (k (.ok a)))
    (h' : ∀ e, E' e → Safe I P E Msg size i N G n g (k (.error e))) : Safe I P E Msg size i N G n g (x.into out k) := by
  replace hx := hx n
  induction x with
  | stop r => cases r with
    | ok a => exact h a hx.2
    | error e => exact h' e hx
  | read f h ih => exact fun s hs => ih _ (hx s hs)
  | write f h ih => exact ⟨hx.1, ih hx.2⟩
  | say a h ih => exact hx.1.elim

theorem Own.weaken {C' : W → Prop} {x : Task S B M} (h : Own V I P E Msg size i N G C n g x) (hC : ∀ w, C' w → C w) :
    Own V I P E Msg size i N G C' n g x := by
  induction x generalizing n g C C' with
  | stop r => cases r <;> exact h
  | read f k ih => exact fun s hs hc => h s hs (hC _ hc)
  | write f k ih =>
    obtain ⟨C'', h1, h2⟩ := h
    exact ⟨C'', fun s hs hc => h1 s hs (hC _ hc), h2⟩
  | say b k ih => exact ⟨h.1, ih h.2 hC⟩
  | gather msg k ih =>
    exact ⟨h.1, h.2.1, fun hi all hl ha => ih _ (h.2.2.1 hi all hl ha) hC, fun hi => ih _ (h.2.2.2 hi) hC⟩

theorem Own.into {Q : Nat → α → Prop} {x : Todo S A α} {k : Py α → Task S B M} {n' : Nat}
    (hx : Todo.Own V I (fun _ _ => False) (fun _ => False) Q D C n' x)
    (h : ∀ a, (∃ j, Q j a) → Own V I P E Msg size i N G D n g (k (.ok a))) :
    Own V I P E Msg size i N G C n g (x.into out k) := by
  induction x generalizing C n' with
  | stop r => cases r with
    | ok a => exact (h a ⟨_, hx.1⟩).weaken hx.2
    | error e => exact hx.elim
  | read f h ih => exact fun s hs hc => ih _ (hx s hs hc)
  | write f h ih =>
    obtain ⟨C', h1, h2⟩ := hx
    exact ⟨C', h1, ih h2⟩
  | say a h ih => exact hx.1.elim

theorem Keeps.into {x : Todo S A α} {k : Py α → Task S B M} (hx : Todo.Keeps V x) (h : ∀ r, Keeps V (k r)) :
    Keeps V (x.into out k) := by
  induction x with
  | stop r => exact h r
  | read f h ih => exact fun b => ih b (hx b)
  | write f h ih => exact ⟨hx.1, ih hx.2⟩
  | say a h ih => exact ih hx

end Task

/-! ### one step -/

section

theorem mapM_cons {α : Type 1} {β : Type} (f : α → Option β) (a : α) (l : List α) :
    (a :: l).mapM f = (match f a with
      | none => none
      | some b => match l.mapM f with
        | none => none
        | some bs => some (b :: bs)) := by
  rw [List.mapM_cons]
  cases f a with
  | none => rfl
  | some b => cases l.mapM f <;> rfl

theorem mapM_some {α : Type 1} {β : Type} {f : α → Option β} {l : List α} {l' : List β} (h : l.mapM f = some l') :
    l'.length = l.length ∧ ∀ (j : Nat) a, l[j]? = some a → l'[j]? = f a := by
  induction l generalizing l' with
  | nil => cases h; simp
  | cons a l ih =>
    rw [mapM_cons] at h
    cases ha : f a with
    | none => rw [ha] at h; cases h
    | some b =>
      rw [ha] at h
      cases hl : l.mapM f with
      | none => rw [hl] at h; cases h
      | some bs =>
        rw [hl] at h
        cases h
        obtain ⟨h1, h2⟩ := ih hl
        refine ⟨by simp [h1], fun j a' hj => ?_⟩
        cases j with
        | zero =>
          simp only [List.getElem?_cons_zero, Option.some.injEq] at hj
          subst hj
          simp [ha]
        | succ j => simpa using h2 j a' (by simpa using hj)

theorem mapM_none {α : Type 1} {β : Type} {f : α → Option β} {l : List α} (h : l.mapM f = none) :
    ∃ a ∈ l, f a = none := by
  induction l with
  | nil => cases h
  | cons a l ih =>
    rw [mapM_cons] at h
    cases ha : f a with
    | none => exact ⟨a, by simp, ha⟩
    | some b =>
      rw [ha] at h
      cases hl : l.mapM f with
      | none =>
        obtain ⟨a', h1, h2⟩ := ih hl
        exact ⟨a', by simp [h1], h2⟩
      | some bs => rw [hl] at h; cases h

variable {R K : Type}

/-- the ways in which a rank moves -/
theorem Rank.move_some {ranks : List (Rank R K)} {i : Nat} {p p' : Rank R K} {st st' : Store R K}
    (h : p.move ranks i st = some (st', p')) :
    (∃ (β : Type) (f : Store R K → β) (k : β → RankTask R K), p.rest = .read f k ∧ st' = st ∧ p' = ⟨p.said, p.sent, k (f st)⟩) ∨
    (∃ f k, p.rest = .write f k ∧ st' = f st ∧ p' = ⟨p.said, p.sent, k⟩) ∨
    (∃ b k, p.rest = .say b k ∧ st' = st ∧ p' = ⟨p.said ++ [b], p.sent, k⟩) ∨
    (∃ msg k others, p.rest = .gather msg k ∧ i = 0 ∧ (ranks.drop 1).mapM (fun q => q.sent[p.sent.length]?) = some others ∧
      st' = st ∧ p' = ⟨p.said, p.sent ++ [msg], k (some (msg :: others))⟩) ∨
    (∃ msg k, p.rest = .gather msg k ∧ i ≠ 0 ∧ st' = st ∧ p' = ⟨p.said, p.sent ++ [msg], k none⟩) := by
  unfold Rank.move at h
  cases hr : p.rest with
  | stop r => rw [hr] at h; cases h
  | read f k => rw [hr] at h; cases h; exact Or.inl ⟨_, f, k, rfl, rfl, rfl⟩
  | write f k => rw [hr] at h; cases h; exact Or.inr (Or.inl ⟨f, k, rfl, rfl, rfl⟩)
  | say b k => rw [hr] at h; cases h; exact Or.inr (Or.inr (Or.inl ⟨b, k, rfl, rfl, rfl⟩))
  | gather msg k =>
    rw [hr] at h
    simp only at h
    split at h
    · rename_i hi
      split at h
      · cases h
      · rename_i others ho
        cases h
        exact Or.inr (Or.inr (Or.inr (Or.inl ⟨msg, k, others, rfl, hi, ho, rfl, rfl⟩)))
    · rename_i hi
      cases h
      exact Or.inr (Or.inr (Or.inr (Or.inr ⟨msg, k, rfl, hi, rfl, rfl⟩)))

theorem Rank.move_keeps {W : Type} {V : Store R K → W} {ranks : List (Rank R K)} {i : Nat} {p p' : Rank R K}
    {st st' : Store R K} (h : Task.Keeps V p.rest) (hm : p.move ranks i st = some (st', p')) :
    Task.Keeps V p'.rest ∧ V st' = V st := by
  rcases move_some hm with ⟨β, f, k, hr, rfl, rfl⟩ | ⟨f, k, hr, rfl, rfl⟩ | ⟨b, k, hr, rfl, rfl⟩ |
    ⟨msg, k, others, hr, hi, ho, rfl, rfl⟩ | ⟨msg, k, hr, hi, rfl, rfl⟩
  · rw [hr] at h; exact ⟨h _, rfl⟩
  · rw [hr] at h; exact ⟨h.2, h.1 st⟩
  · rw [hr] at h; exact ⟨h, rfl⟩
  · rw [hr] at h; exact ⟨h _, rfl⟩
  · rw [hr] at h; exact ⟨h _, rfl⟩

/-- where a rank is: what it has printed and sent is as it should be, and the rest will be -/
structure Rank.Track (I : Store R K → Prop) (P : Nat → RankOut K → Prop) (E : Err → Prop)
    (Msg : Nat → Nat → List (Option K) → Prop) (size N G i : Nat) (p : Rank R K) : Prop where
  said : ∀ (j : Nat) x, p.said[j]? = some x → P j x
  sent : ∀ (g : Nat) msg, p.sent[g]? = some msg → Msg i g msg
  rest : Task.Safe I P E Msg size i N G p.said.length p.sent.length p.rest

theorem append_ok {α : Type} {P : Nat → α → Prop} {l : List α} {a : α} (h : ∀ (j : Nat) x, l[j]? = some x → P j x) (ha : P l.length a)
    (j : Nat) (x : α) (hx : (l ++ [a])[j]? = some x) : P j x := by
  rw [List.getElem?_append] at hx
  split at hx
  · exact h j x hx
  · rename_i hj
    have : j = l.length := by
      by_contra hne
      have : j - l.length ≠ 0 := by omega
      obtain ⟨i, hi⟩ := Nat.exists_eq_succ_of_ne_zero this
      rw [hi] at hx
      simp at hx
    subst this
    simp at hx
    subst hx
    exact ha

/-- the messages that rank 0 receives -/
theorem received {Msg : Nat → Nat → List (Option K) → Prop} {ranks : List (Rank R K)} {p : Rank R K} {g size : Nat}
    (h0 : ranks[0]? = some p) (hs : ranks.length = size)
    (hsent : ∀ (j : Nat) q, ranks[j]? = some q → ∀ (g : Nat) msg, q.sent[g]? = some msg → Msg j g msg)
    {msg : List (Option K)} (hmsg : Msg 0 g msg) {others : List (List (Option K))}
    (ho : (ranks.drop 1).mapM (fun q => q.sent[g]?) = some others) :
    (msg :: others).length = size ∧ ∀ (j : Nat) msg', (msg :: others)[j]? = some msg' → Msg j g msg' := by
  obtain ⟨h1, h2⟩ := mapM_some ho
  have hl := (List.getElem?_eq_some_iff.1 h0).1
  refine ⟨?_, fun j msg' hj => ?_⟩
  · rw [List.length_cons, h1, List.length_drop]; omega
  · cases j with
    | zero => simp at hj; subst hj; exact hmsg
    | succ j =>
      have hj' : others[j]? = some msg' := by simpa using hj
      have hlt := (List.getElem?_eq_some_iff.1 hj').1
      rw [h1] at hlt
      have hq := List.getElem?_eq_getElem hlt
      have h3 := h2 j _ hq
      rw [hj'] at h3
      rw [List.getElem?_drop] at hq
      exact hsent (j + 1) _ (by rw [Nat.add_comm]; exact hq) g msg' h3.symm

theorem Rank.Track.move {I : Store R K → Prop} {P : Nat → Nat → RankOut K → Prop} {E : Err → Prop}
    {Msg : Nat → Nat → List (Option K) → Prop} {size N G : Nat} {ranks : List (Rank R K)} (hs : ranks.length = size)
    (h : ∀ (j : Nat) q, ranks[j]? = some q → q.Track I (P j) E Msg size N G j) {i : Nat} {p p' : Rank R K}
    (hi : ranks[i]? = some p) {st st' : Store R K} (hst : I st) (hm : p.move ranks i st = some (st', p')) :
    p'.Track I (P i) E Msg size N G i ∧ I st' := by
  obtain ⟨h1, h2, h3⟩ := h i p hi
  rcases move_some hm with ⟨β, f, k, hr, rfl, rfl⟩ | ⟨f, k, hr, rfl, rfl⟩ | ⟨b, k, hr, rfl, rfl⟩ |
    ⟨msg, k, others, hr, rfl, ho, rfl, rfl⟩ | ⟨msg, k, hr, hi, rfl, rfl⟩
  · rw [hr] at h3; exact ⟨⟨h1, h2, h3 _ hst⟩, hst⟩
  · rw [hr] at h3; exact ⟨⟨h1, h2, h3.2⟩, h3.1 st hst⟩
  · rw [hr] at h3
    exact ⟨⟨append_ok (P := P i) h1 h3.1, h2, by simpa using h3.2⟩, hst⟩
  · rw [hr] at h3
    obtain ⟨h4, h5, h6, -⟩ := h3
    obtain ⟨r1, r2⟩ := received hi hs (fun j q hq => (h j q hq).sent) h4 ho
    exact ⟨⟨h1, append_ok (P := Msg 0) h2 h4, by simpa using h6 rfl _ r1 r2⟩, hst⟩
  · rw [hr] at h3
    exact ⟨⟨h1, append_ok (P := Msg i) h2 h3.1, by simpa using h3.2.2.2 hi⟩, hst⟩

end
end GGCE
