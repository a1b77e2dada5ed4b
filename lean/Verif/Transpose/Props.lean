import Verif.Transpose.Model
import Mathlib.Data.List.Nodup
import Mathlib.Data.Fintype.Card
import Mathlib.Tactic.Ring
/-!
C15 (transpose hoisted above a pad) and C16 (inverse transposes cancelled).
-/
namespace Verif.Transpose
open Verif.Tensor Verif.Move

/-- First components of paddings, as natural numbers. -/
def befores (pad : List (Int × Int)) : List Nat := pad.map fun p => p.1.toNat

/-- Shape of a padded tensor. -/
def padShape (pad : List (Int × Int)) (s : List Nat) : List Nat :=
  List.zipWith (fun p n => p.1.toNat + n + p.2.toNat) pad s

/-- C15.  Whenever the pattern applies (to a rank-4 tensor), the new transposed shape is right, the result has the same
shape, and every element is the same. -/
theorem C15_hoist_transpose {α : Type} (z : α) (f : List Nat → α) (shape : List Nat) (hs : shape.length = 4)
    (perm : List Nat) (pad pad' : List (Int × Int)) (tshape : List Nat)
    (h : hoist shape (perm.map Int.ofNat) pad = some (tshape, pad')) :
    tshape = transposeShape perm shape ∧
    padShape pad' tshape = transposeShape perm (padShape pad shape) ∧
    ∀ idx, InShape (padShape pad' tshape) idx →
      padT z (befores pad') tshape (transposeT perm f) idx = transposeT perm (padT z (befores pad) shape f) idx := by
  unfold hoist at h
  by_cases hc : (isNWCH (perm.map Int.ofNat) && isPad11 pad) = true
  swap
  · rw [if_neg hc] at h; cases h
  rw [if_pos hc] at h
  have h := Option.some.inj h
  obtain ⟨rfl, rfl⟩ := Prod.mk.inj h
  simp only [isNWCH, isPad11, Bool.and_eq_true, beq_iff_eq] at hc
  obtain ⟨hp, rfl⟩ := hc
  have hperm : perm = [0, 2, 3, 1] := by
    match perm, hp with
    | [a, b, c, d], hp =>
      simp only [List.map_cons, List.map_nil, List.cons.injEq, and_true] at hp
      obtain ⟨h1, h2, h3, h4⟩ := hp
      have h1 : a = 0 := by exact Int.ofNat.inj h1
      have h2 : b = 2 := by exact Int.ofNat.inj h2
      have h3 : c = 3 := by exact Int.ofNat.inj h3
      have h4 : d = 1 := by exact Int.ofNat.inj h4
      rw [h1, h2, h3, h4]
  subst hperm
  match shape, hs with
  | [n, a, b, c], _ =>
    refine ⟨rfl, by simp [padShape, transposeShape], ?_⟩
    intro idx hidx
    match idx, hidx with
    | [i, j, k, l], hidx =>
      obtain ⟨h1, h2, h3, h4, _⟩ := hidx
      have h1 : i < n := by simpa using h1
      have h4 : l < a := by simpa using h4
      have e : ∀ g : List Nat → α, ∀ i j k l, transposeT [0, 2, 3, 1] g [i, j, k, l] = g [i, l, j, k] := by
        intro g i j k l
        rfl
      rw [e]
      simp only [befores, List.map_cons, List.map_nil, Int.toNat_zero, Int.toNat_one, padT, List.getD_cons_zero,
        List.getD_cons_succ]
      have c1 : 0 ≤ i ∧ i < 0 + n := by omega
      have c4 : 0 ≤ l ∧ l < 0 + a := by omega
      simp only [if_pos c1, if_pos c4]
      by_cases hj : 1 ≤ j ∧ j < 1 + b
      · by_cases hk : 1 ≤ k ∧ k < 1 + c
        · rw [if_pos hj, if_pos hj, if_pos hk, if_pos hk]
          rfl
        · rw [if_pos hj, if_pos hj, if_neg hk, if_neg hk]
      · rw [if_neg hj, if_neg hj]

example : (hoist [1, 3, 5, 7] [0, 2, 3, 1] [(0, 0), (0, 0), (1, 1), (1, 1)]).isSome = true := rfl

/-! ### Cancelling -/

theorem areCancellable_iff (p0 p1 : List Nat) : areCancellable p0 p1 = true ↔
    p0 ≠ [] ∧ p0.length = p1.length ∧ ∀ i, i < p0.length → p0[p1.getD i p0.length]? = some i := by
  unfold areCancellable
  simp only [Bool.and_eq_true, Bool.not_eq_true', List.isEmpty_eq_false_iff, beq_iff_eq, List.all_eq_true, List.mem_range,
    and_assoc]

/-- A surjective list of length `n` on `0 .. n-1` is injective. -/
theorem IsPerm.nodup {p : List Nat} {n : Nat} (h : IsPerm p n) : p.Nodup := by
  obtain ⟨h1, h2⟩ := h
  have hsub : List.range n ⊆ p := fun d hd => h2 d (List.mem_range.1 hd)
  have hsp : (List.range n).Subperm p := List.nodup_range.subperm hsub
  have hperm : (List.range n).Perm p := hsp.perm_of_length_le (by simp [h1])
  exact hperm.nodup_iff.1 List.nodup_range

theorem IsPerm.lt {p : List Nat} {n : Nat} (h : IsPerm p n) : ∀ d ∈ p, d < n := by
  obtain ⟨h1, h2⟩ := h
  have hsub : List.range n ⊆ p := fun d hd => h2 d (List.mem_range.1 hd)
  have hsp : (List.range n).Subperm p := List.nodup_range.subperm hsub
  have hperm : (List.range n).Perm p := hsp.perm_of_length_le (by simp [h1])
  intro d hd
  exact List.mem_range.1 (hperm.mem_iff.2 hd)

/-- What the test establishes: the position of `d` in the inner permutation is what the outer one has at `d`... both ways. -/
theorem cancel_inverse {p0 p1 : List Nat} (h : areCancellable p0 p1 = true) (hp0 : IsPerm p0 p0.length)
    (hp1 : IsPerm p1 p0.length) : ∀ d, d < p0.length → p1.getD (p0.getD d 0) 0 = d ∧ p0.getD (p1.getD d 0) 0 = d := by
  obtain ⟨_, hl, hi⟩ := (areCancellable_iff p0 p1).1 h
  have hA : ∀ d, d < p0.length → p0.getD (p1.getD d 0) 0 = d := by
    intro d hd
    have h1 := hi d hd
    have e : p1.getD d p0.length = p1.getD d 0 := by
      rw [List.getD_eq_getElem?_getD, List.getD_eq_getElem?_getD, List.getElem?_eq_getElem (by omega)]; rfl
    rw [e] at h1
    rw [List.getD_eq_getElem?_getD, h1]; rfl
  intro d hd
  refine ⟨?_, hA d hd⟩
  -- injectivity of p0: p0[p1[p0[d]]] = p0[d]
  have hlt : p0.getD d 0 < p0.length := by
    have : p0.getD d 0 = p0[d] := by rw [List.getD_eq_getElem?_getD, List.getElem?_eq_getElem hd]; rfl
    rw [this]
    exact hp0.lt _ (List.getElem_mem hd)
  have h2 := hA (p0.getD d 0) hlt
  have hlt1 : p1.getD (p0.getD d 0) 0 < p0.length := by
    have : p1.getD (p0.getD d 0) 0 = p1[p0.getD d 0]'(by omega) := by
      rw [List.getD_eq_getElem?_getD, List.getElem?_eq_getElem (by omega)]; rfl
    rw [this]
    exact hp1.lt _ (List.getElem_mem _)
  have hn := hp0.nodup
  have e1 : p0.getD (p1.getD (p0.getD d 0) 0) 0 = p0[p1.getD (p0.getD d 0) 0] := by
    rw [List.getD_eq_getElem?_getD, List.getElem?_eq_getElem hlt1]; rfl
  have e2 : p0.getD d 0 = p0[d] := by rw [List.getD_eq_getElem?_getD, List.getElem?_eq_getElem hd]; rfl
  rw [e1] at h2
  exact (List.Nodup.getElem_inj_iff hn).1 (h2.trans e2)

/-- C16.  If the test passes on two permutations, the two transposes together are the identity: same shape, same element
everywhere. -/
theorem C16_cancelled_is_identity {α : Type} (f : List Nat → α) (shape p0 p1 : List Nat) (hp0 : IsPerm p0 shape.length)
    (hp1 : IsPerm p1 shape.length) (h : cancels p0 p1 = true) :
    transposeShape p0 (transposeShape p1 shape) = shape ∧
    ∀ idx, InShape shape idx → transposeT p0 (transposeT p1 f) idx = f idx := by
  have hl0 := hp0.1
  have hl1 := hp1.1
  have hinv := cancel_inverse h (by rw [hl0]; exact hp0) (by rw [hl0]; exact hp1)
  rw [hl0] at hinv
  have hget0 : ∀ d, d < shape.length → p0[d]? = some (p0.getD d 0) := by
    intro d hd
    rw [List.getD_eq_getElem?_getD, List.getElem?_eq_getElem (by omega)]; rfl
  have hp0lt : ∀ d, d < shape.length → p0.getD d 0 < shape.length := by
    intro d hd
    have h := hget0 d hd
    exact hp0.lt _ (List.mem_of_getElem? h)
  constructor
  · apply List.ext_getElem?
    intro i
    unfold transposeShape
    by_cases hi : i < shape.length
    · rw [List.getElem?_map, hget0 i hi, Option.map_some]
      have : (p1.map fun d => shape.getD d 0).getD (p0.getD i 0) 0 = shape.getD i 0 := by
        have hlt := hp0lt i hi
        rw [List.getD_eq_getElem?_getD, List.getElem?_map]
        have e : p1[p0.getD i 0]? = some (p1.getD (p0.getD i 0) 0) := by
          rw [List.getD_eq_getElem?_getD (l := p1), List.getElem?_eq_getElem (by omega)]; rfl
        rw [e, Option.map_some, Option.getD_some, (hinv i hi).1]
      rw [this, List.getD_eq_getElem?_getD, List.getElem?_eq_getElem hi]; rfl
    · rw [List.getElem?_eq_none (by simp; omega), List.getElem?_eq_none (by omega)]
  · intro idx hidx
    have hlen : idx.length = shape.length := by
      clear hp0 hp1 hl0 hl1 hinv hget0 hp0lt
      induction shape generalizing idx with
      | nil => cases idx with
        | nil => rfl
        | cons _ _ => exact hidx.elim
      | cons n s ih => cases idx with
        | nil => exact hidx.elim
        | cons i idx => rw [List.length_cons, List.length_cons, ih idx hidx.2]
    unfold transposeT
    congr 1
    apply List.ext_getElem?
    intro i
    by_cases hi : i < shape.length
    · rw [List.getElem?_map, List.getElem?_range (by omega), Option.map_some]
      -- position of i in p1
      have e1 : p1.idxOf i = p0.getD i 0 := by
        have hlt := hp0lt i hi
        have hg : p1[p0.getD i 0]'(by omega) = i := by
          have := (hinv i hi).1
          rwa [List.getD_eq_getElem?_getD (l := p1), List.getElem?_eq_getElem (by omega)] at this
        have := hp1.nodup.idxOf_getElem (p0.getD i 0) (by omega)
        rwa [hg] at this
      have e0 : p0.idxOf (p0.getD i 0) = i := by
        have hg : p0.getD i 0 = p0[i]'(by omega) := by
          rw [List.getD_eq_getElem?_getD, List.getElem?_eq_getElem (by omega)]; rfl
        rw [hg]
        exact hp0.nodup.idxOf_getElem i (by omega)
      have hlt := hp0lt i hi
      rw [e1, List.getD_eq_getElem?_getD, List.getElem?_map, List.getElem?_range (by omega), Option.map_some,
        Option.getD_some, e0, List.getD_eq_getElem?_getD, List.getElem?_eq_getElem (by omega)]
      rfl
    · rw [List.getElem?_eq_none (by simp; omega), List.getElem?_eq_none (by omega)]

/-- Conversely, transposes that together move some element of some tensor are never cancelled: the test passes only on
mutually inverse permutations. -/
theorem C16_only_inverse (p0 p1 : List Nat) (hne : p0 ≠ []) (hl : p1.length = p0.length) (hp0 : IsPerm p0 p0.length)
    (hp1 : IsPerm p1 p0.length) :
    cancels p0 p1 = true ↔ ∀ idx : List Nat, idx.length = p0.length →
      transposeT p0 (transposeT p1 id) idx = idx := by
  constructor
  · intro h idx hidx
    have hsh : IsPerm p0 (idx.map (· + 1)).length ∧ IsPerm p1 (idx.map (· + 1)).length := by
      rw [List.length_map, hidx]; exact ⟨hp0, hp1⟩
    have := (C16_cancelled_is_identity id (idx.map (· + 1)) p0 p1 hsh.1 hsh.2 h).2 idx (by
      clear hsh hidx
      induction idx with
      | nil => trivial
      | cons i idx ih => exact ⟨Nat.lt_succ_self _, ih⟩)
    exact this
  · intro h
    apply (areCancellable_iff p0 p1).2
    refine ⟨hne, hl.symm, ?_⟩
    intro i hi
    -- test the identity index list 0, 1, ..., n-1
    have ht := h (List.range p0.length) (by simp)
    unfold transposeT at ht
    simp only [id] at ht
    rw [hl] at ht
    -- element at position d := p1[i] of both sides
    have hi1 : i < p1.length := by omega
    have hd : p1.getD i p0.length = p1[i] := by rw [List.getD_eq_getElem?_getD, List.getElem?_eq_getElem hi1]; rfl
    rw [hd]
    have hdlt : p1[i] < p0.length := hp1.lt _ (List.getElem_mem hi1)
    have := congrArg (fun l => l[p1[i]]?) ht
    simp only [List.getElem?_map, List.getElem?_range hdlt, Option.map_some] at this
    have this := Option.some.inj this
    rw [hp1.nodup.idxOf_getElem i hi1, List.getD_eq_getElem?_getD, List.getElem?_map, List.getElem?_range hi, Option.map_some,
      Option.getD_some] at this
    -- p0.idxOf i = p1[i]
    have hmem : i ∈ p0 := hp0.2 i hi
    have hlt : p0.idxOf i < p0.length := List.idxOf_lt_length_iff.2 hmem
    rw [List.getD_eq_getElem?_getD, List.getElem?_range hlt, Option.getD_some] at this
    rw [← this, List.getElem?_eq_getElem hlt, List.getElem_idxOf hlt]

example : cancels [0, 2, 3, 1] [0, 3, 1, 2] = true ∧ IsPerm [0, 2, 3, 1] 4 ∧ IsPerm [0, 3, 1, 2] 4 :=
  ⟨by decide, ⟨rfl, by decide⟩, ⟨rfl, by decide⟩⟩
example : cancels [0, 2, 3, 1] [0, 2, 3, 1] = false := by decide

end Verif.Transpose
