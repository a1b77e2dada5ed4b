import Verif.MemPlan.Spec
import Mathlib.Data.List.Perm.Basic
import Mathlib.Data.List.Nodup
import Mathlib.Data.List.Sort
import Mathlib.Data.List.Range
/-! Helper lemmas: the first-fit allocation loop and the final ordering by id. -/
namespace Verif.MemPlan

/-- Live ranges in the sense of the planner's map meet. -/
def Meets (vi : VMap) (a b : Nat) : Prop := ¬ ((vi a).first > (vi b).last ∨ (vi b).first > (vi a).last)

theorem Meets.symm {vi : VMap} {a b : Nat} (h : Meets vi a b) : Meets vi b a := by
  unfold Meets at *; omega

theorem getOffset_ge (vi : VMap) (v : Nat) (size : Int) (al : Alloc) (acc : Int) :
    acc ≤ getOffset vi v size al acc := by
  induction al generalizing acc with
  | nil => simp [getOffset]
  | cons x xs ih =>
    obtain ⟨a, ao⟩ := x
    simp only [getOffset]
    split
    · exact ih acc
    · split
      · omega
      · refine le_trans ?_ (ih _)
        split <;> omega

theorem getOffset_disjoint (vi : VMap) (v : Nat) (size : Int) (al : Alloc) (acc : Int)
    (hs : al.Pairwise (fun x y => x.2 ≤ y.2)) :
    ∀ x ∈ al, Meets vi v x.1 →
      RangesDisjoint (getOffset vi v size al acc) size x.2 (vi x.1).size := by
  induction al generalizing acc with
  | nil => simp
  | cons x xs ih =>
    obtain ⟨a, ao⟩ := x
    rw [List.pairwise_cons] at hs
    intro y hy hm
    simp only [getOffset]
    rcases List.mem_cons.1 hy with rfl | hy
    · split
      · rename_i h; exact absurd h (fun h => hm (Or.symm h))
      · split
        · left; simp only; omega
        · right
          refine le_trans ?_ (getOffset_ge _ _ _ _ _)
          simp only
          split <;> omega
    · split
      · exact ih acc hs.2 y hy hm
      · split
        · left
          have := hs.1 y hy
          simp only at this
          omega
        · exact ih _ hs.2 y hy hm

theorem getOffset_dvd (vi : VMap) (v : Nat) (size : Int) (al : Alloc) (acc : Int)
    (hacc : (8 : Int) ∣ acc) (h : ∀ x ∈ al, (8 : Int) ∣ x.2 ∧ (8 : Int) ∣ (vi x.1).size) :
    (8 : Int) ∣ getOffset vi v size al acc := by
  induction al generalizing acc with
  | nil => simpa [getOffset]
  | cons x xs ih =>
    obtain ⟨a, ao⟩ := x
    have hx := h (a, ao) (by simp)
    have hxs : ∀ x ∈ xs, (8 : Int) ∣ x.2 ∧ (8 : Int) ∣ (vi x.1).size := fun y hy => h y (by simp [hy])
    simp only [getOffset]
    split
    · exact ih acc hacc hxs
    · split
      · exact hacc
      · apply ih _ _ hxs
        split
        · exact Int.dvd_add hx.1 hx.2
        · exact hacc

theorem insertByOffset_perm (x : Nat × Int) (al : Alloc) : (insertByOffset x al).Perm (x :: al) := by
  induction al with
  | nil => simp [insertByOffset]
  | cons y ys ih =>
    simp only [insertByOffset]
    split
    · exact List.Perm.refl _
    · exact (ih.cons y).trans (List.Perm.swap x y ys)

theorem insertByOffset_sorted (x : Nat × Int) (al : Alloc)
    (h : al.Pairwise (fun x y => x.2 ≤ y.2)) :
    (insertByOffset x al).Pairwise (fun x y => x.2 ≤ y.2) := by
  induction al with
  | nil => simp [insertByOffset]
  | cons y ys ih =>
    rw [List.pairwise_cons] at h
    simp only [insertByOffset]
    split
    · rename_i hlt
      rw [List.pairwise_cons]
      refine ⟨?_, List.pairwise_cons.2 h⟩
      intro z hz
      rcases List.mem_cons.1 hz with rfl | hz
      · exact le_of_lt hlt
      · exact le_trans (le_of_lt hlt) (h.1 z hz)
    · rename_i hge
      rw [List.pairwise_cons]
      refine ⟨?_, ih h.2⟩
      intro z hz
      have hz := (insertByOffset_perm x ys).mem_iff.1 hz
      rcases List.mem_cons.1 hz with rfl | hz
      · omega
      · exact h.1 z hz

/-- Invariant of the allocation loop. -/
structure AllocInv (vi : VMap) (al : Alloc) : Prop where
  sorted : al.Pairwise (fun x y => x.2 ≤ y.2)
  safe : ∀ x ∈ al, ∀ y ∈ al, x.1 ≠ y.1 → Meets vi x.1 y.1 →
    RangesDisjoint x.2 (vi x.1).size y.2 (vi y.1).size
  nonneg : ∀ x ∈ al, 0 ≤ x.2
  dvd : ∀ x ∈ al, (8 : Int) ∣ x.2

theorem RangesDisjoint.symm {a b c d : Int} (h : RangesDisjoint a b c d) : RangesDisjoint c d a b :=
  Or.symm h

theorem allocStep_inv (vi : VMap) (hsz : ∀ v, (8 : Int) ∣ (vi v).size) (v : Nat) (al : Alloc)
    (h : AllocInv vi al) :
    AllocInv vi (insertByOffset (v, getOffset vi v (vi v).size al 0) al) := by
  have hp := insertByOffset_perm (v, getOffset vi v (vi v).size al 0) al
  refine ⟨insertByOffset_sorted _ _ h.sorted, ?_, ?_, ?_⟩
  · intro x hx y hy hne hm
    have hx := hp.mem_iff.1 hx
    have hy := hp.mem_iff.1 hy
    rcases List.mem_cons.1 hx with rfl | hx <;> rcases List.mem_cons.1 hy with rfl | hy
    · exact absurd rfl hne
    · exact getOffset_disjoint vi v _ al 0 h.sorted y hy hm
    · exact (getOffset_disjoint vi v _ al 0 h.sorted x hx hm.symm).symm
    · exact h.safe x hx y hy hne hm
  · intro x hx
    rcases List.mem_cons.1 (hp.mem_iff.1 hx) with rfl | hx
    · exact getOffset_ge vi v _ al 0
    · exact h.nonneg x hx
  · intro x hx
    rcases List.mem_cons.1 (hp.mem_iff.1 hx) with rfl | hx
    · exact getOffset_dvd vi v _ al 0 (Int.dvd_zero 8) fun y hy => ⟨h.dvd y hy, hsz y.1⟩
    · exact h.dvd x hx

theorem allocLoop_inv (vi : VMap) (hsz : ∀ v, (8 : Int) ∣ (vi v).size) (q : List Nat) (al : Alloc)
    (h : AllocInv vi al) (hn : (q ++ al.map Prod.fst).Nodup) :
    AllocInv vi (allocLoop vi q al) ∧
      ((allocLoop vi q al).map Prod.fst).Perm (q ++ al.map Prod.fst) := by
  induction q generalizing al with
  | nil => exact ⟨h, List.Perm.refl _⟩
  | cons v q ih =>
    simp only [allocLoop]
    have hinv := allocStep_inv vi hsz v al h
    have hp := (insertByOffset_perm (v, getOffset vi v (vi v).size al 0) al).map Prod.fst
    simp only [List.map_cons] at hp
    have hperm : (q ++ (insertByOffset (v, getOffset vi v (vi v).size al 0) al).map Prod.fst).Perm
        (v :: q ++ al.map Prod.fst) :=
      ((hp.append_left q)).trans List.perm_middle
    have hnd := hperm.nodup_iff.2 hn
    obtain ⟨h1, h2⟩ := ih _ hinv hnd
    exact ⟨h1, h2.trans hperm⟩

theorem insertQueue_perm (vi : VMap) (x : Nat) (q : List Nat) :
    (insertQueue vi x q).Perm (x :: q) := by
  induction q with
  | nil => simp [insertQueue]
  | cons y ys ih =>
    simp only [insertQueue]
    split
    · exact List.Perm.refl _
    · exact (ih.cons y).trans (List.Perm.swap x y ys)

theorem queueOf_perm (vi : VMap) (vs : List Nat) : (queueOf vi vs).Perm vs := by
  have : ∀ (q : List Nat), (vs.foldl (fun q v => insertQueue vi v q) q).Perm (q ++ vs) := by
    induction vs with
    | nil => simp
    | cons v vs ih =>
      intro q
      simp only [List.foldl_cons]
      refine (ih _).trans ?_
      refine ((insertQueue_perm vi v q).append_right vs).trans ?_
      exact List.perm_middle.symm
  simpa [queueOf] using this []

theorem allocate_inv (vi : VMap) (hsz : ∀ v, (8 : Int) ∣ (vi v).size) (q : List Nat) (al : Alloc)
    (hn : q.Nodup) (h : allocate vi q = some al) :
    AllocInv vi al ∧ (al.map Prod.fst).Perm q := by
  cases q with
  | nil => simp [allocate] at h
  | cons v q =>
    simp only [allocate, Option.some.injEq] at h
    subst h
    have h0 : AllocInv vi [(v, 0)] := by
      refine ⟨by simp, ?_, by simp, by simp⟩
      intro x hx y hy hne
      simp at hx hy
      subst hx; subst hy
      exact absurd rfl hne
    have hnd : (q ++ ([(v, (0 : Int))] : Alloc).map Prod.fst).Nodup := by
      have : (q ++ [v]).Perm (v :: q) := by
        simp
      exact this.nodup_iff.2 hn
    obtain ⟨h1, h2⟩ := allocLoop_inv vi hsz q _ h0 hnd
    refine ⟨h1, h2.trans ?_⟩
    simp

/-! ### Ordering by id -/

theorem insertById_perm (x : Nat × Int) (al : Alloc) : (insertById x al).Perm (x :: al) := by
  induction al with
  | nil => simp [insertById]
  | cons y ys ih =>
    simp only [insertById]
    split
    · exact List.Perm.refl _
    · exact (ih.cons y).trans (List.Perm.swap x y ys)

theorem insertById_sorted (x : Nat × Int) (al : Alloc)
    (h : al.Pairwise (fun x y => x.1 ≤ y.1)) :
    (insertById x al).Pairwise (fun x y => x.1 ≤ y.1) := by
  induction al with
  | nil => simp [insertById]
  | cons y ys ih =>
    rw [List.pairwise_cons] at h
    simp only [insertById]
    split
    · rename_i hlt
      rw [List.pairwise_cons]
      refine ⟨?_, List.pairwise_cons.2 h⟩
      intro z hz
      rcases List.mem_cons.1 hz with rfl | hz
      · exact le_of_lt hlt
      · exact le_trans (le_of_lt hlt) (h.1 z hz)
    · rename_i hge
      rw [List.pairwise_cons]
      refine ⟨?_, ih h.2⟩
      intro z hz
      have hz := (insertById_perm x ys).mem_iff.1 hz
      rcases List.mem_cons.1 hz with rfl | hz
      · omega
      · exact h.1 z hz

theorem sortById_spec (al : Alloc) :
    (sortById al).Perm al ∧ (sortById al).Pairwise (fun x y => x.1 ≤ y.1) := by
  have : ∀ (t : Alloc), t.Pairwise (fun x y => x.1 ≤ y.1) →
      (al.foldl (fun t x => insertById x t) t).Perm (t ++ al) ∧
      (al.foldl (fun t x => insertById x t) t).Pairwise (fun x y => x.1 ≤ y.1) := by
    induction al with
    | nil => intro t ht; exact ⟨by simp, ht⟩
    | cons v vs ih =>
      intro t ht
      simp only [List.foldl_cons]
      obtain ⟨h1, h2⟩ := ih _ (insertById_sorted v t ht)
      refine ⟨h1.trans ?_, h2⟩
      exact ((insertById_perm v t).append_right vs).trans List.perm_middle.symm
  simpa [sortById] using this [] List.Pairwise.nil

theorem sortById_keys (al : Alloc) (n : Nat) (h : (al.map Prod.fst).Perm (List.range n)) :
    (sortById al).map Prod.fst = List.range n := by
  obtain ⟨h1, h2⟩ := sortById_spec al
  have hp : ((sortById al).map Prod.fst).Perm (List.range n) := (h1.map _).trans h
  apply hp.eq_of_pairwise (le := fun a b => a ≤ b)
  · intro a b _ _ h1 h2; exact le_antisymm h1 h2
  · rw [List.pairwise_map]; exact h2
  · exact List.pairwise_lt_range.imp le_of_lt

theorem sortById_lookup (al : Alloc) (n : Nat) (h : (al.map Prod.fst).Perm (List.range n))
    (v : Nat) (o : Int) (hm : (v, o) ∈ al) :
    v < n ∧ offsetOf ((sortById al).map Prod.snd) v = o := by
  have hk := sortById_keys al n h
  obtain ⟨h1, _⟩ := sortById_spec al
  have hm' := h1.mem_iff.2 hm
  obtain ⟨i, hi, hx⟩ := List.getElem_of_mem hm'
  have hlen : (sortById al).length = n := by simpa using congrArg List.length hk
  have hi' : i < n := by omega
  have : ((sortById al).map Prod.fst)[i]'(by simpa using hi) = i := by
    simp [hk]
  simp [hx] at this
  subst this
  refine ⟨hi', ?_⟩
  simp [offsetOf, List.getD_eq_getElem?_getD, hi, hx]

end Verif.MemPlan
