import Verif.Conv.Props
/-!
C49: a transposed convolution with SAME padding is a VALID one followed by a slice.
-/
namespace Verif.Conv
open Verif.Tensor Verif.Move Verif.Image

/-- What the replacement computes: the `VALID` operator with output size `vh x vw`, sliced if there is a slice. -/
def SameToValid.run (r : SameToValid) (rq : Requant) (zpi : Int) (h w : Nat) (x : Tensor) : Tensor :=
  match r.slice with
  | none => tconv rq zpi h w r.vh.toNat r.vw.toNat r.op x
  | some (b, _) => sliceT (b.map Int.toNat) (tconv rq zpi h w r.vh.toNat r.vw.toNat r.op x)

/-- Shape of the replacement's result. -/
def SameToValid.shape (r : SameToValid) : List Int :=
  match r.slice with
  | none => [1, r.vh, r.vw, r.op.filter.o]
  | some (_, s) => s

/-- The slice stays inside the `VALID` result. -/
def SameToValid.Inside (r : SameToValid) : Prop :=
  match r.slice with
  | none => True
  | some (b, s) =>
    List.Forall₂ (fun (bs : Int × Int) n => 0 ≤ bs.1 ∧ bs.1 + bs.2 ≤ n) (b.zip s) [1, r.vh, r.vw, (r.op.filter.o : Int)]

theorem tbefore_same {n k s : Nat} (hn : 1 ≤ n) (hs : 1 ≤ s) (hk : s ≤ k) :
    (tbefore .same (n * s) k s : Int) = ((k : Int) - s).tdiv 2 := by
  unfold tbefore sameBefore samePad sameOut eff
  dsimp only
  have e : ((n * s : Nat) + (s : Int) - 1) / s = n := by
    rw [Int.ediv_eq_iff_of_pos (by omega)]
    have : ((n * s : Nat) : Int) = n * s := by push_cast; rfl
    rw [this]
    constructor
    · omega
    · have : ((n : Int) + 1) * s = n * s + s := by ring
      omega
  rw [e]
  have e2 : ((n : Int) - 1) * s + (((k : Int) - 1) * 1 + 1) - (n * s : Nat) = k - s := by push_cast; ring
  rw [e2, max_eq_right (by omega), Int.tdiv_eq_ediv_of_nonneg (by omega)]
  omega

theorem ttap_shift (n s b y a : Nat) : ttap n s 0 (b + y) a = ttap n s b y a := by
  unfold ttap
  rw [Nat.add_zero, Nat.add_comm b y]

/-- C49.  If the output is exactly `stride` times the input and the kernel is at least as large as the stride, the
replacement has the original shape, its slice stays inside, and it computes every output element of the original. -/
theorem C49_same_to_valid (rq : Requant) (zpi : Int) (ih iw : Nat) (op : ConvOp) (x : Tensor) (r : SameToValid)
    (hih : 1 ≤ ih) (hiw : 1 ≤ iw) (hsh : 1 ≤ op.sh) (hsw : 1 ≤ op.sw) (hkh : op.sh ≤ op.filter.kh) (hkw : op.sw ≤ op.filter.kw)
    (hr : sameToValid ih iw [1, ih * op.sh, iw * op.sw, op.filter.o] op = some r) :
    r.op.padding = .valid ∧ r.shape = [1, ((ih * op.sh : Nat) : Int), ((iw * op.sw : Nat) : Int), (op.filter.o : Int)] ∧
    r.Inside ∧
    ∀ idx, InShape [1, ih * op.sh, iw * op.sw, op.filter.o] idx →
      r.run rq zpi ih iw x idx = tconv rq zpi ih iw (ih * op.sh) (iw * op.sw) op x idx := by
  unfold sameToValid at hr
  by_cases hp : op.padding = .same
  swap
  · rw [if_pos hp] at hr; cases hr
  rw [if_neg (by simp [hp])] at hr
  simp only [List.getD_cons_zero, List.getD_cons_succ] at hr
  have hr := Option.some.inj hr
  subst hr
  have hbh := tbefore_same hih hsh hkh
  have hbw := tbefore_same hiw hsw hkw
  have evh : ((ih : Int) - 1) * op.sh + op.filter.kh = ((ih * op.sh : Nat) : Int) + (op.filter.kh - op.sh) := by
    push_cast; ring
  have evw : ((iw : Int) - 1) * op.sw + op.filter.kw = ((iw * op.sw : Nat) : Int) + (op.filter.kw - op.sw) := by
    push_cast; ring
  rw [evh, evw]
  have td : ∀ k s : Nat, s ≤ k → 0 ≤ ((k : Int) - s).tdiv 2 ∧ ((k : Int) - s).tdiv 2 ≤ k - s := by
    intro k s h
    rw [Int.tdiv_eq_ediv_of_nonneg (by omega)]
    omega
  refine ⟨rfl, ?_, ?_, ?_⟩
  · unfold SameToValid.shape
    dsimp only
    by_cases hc : (op.filter.kh : Int) - op.sh = 0 ∧ (op.filter.kw : Int) - op.sw = 0
    · rw [if_pos hc, hc.1, hc.2, add_zero, add_zero]
    · rw [if_neg hc]
  · unfold SameToValid.Inside
    dsimp only
    by_cases hc : (op.filter.kh : Int) - op.sh = 0 ∧ (op.filter.kw : Int) - op.sw = 0
    · rw [if_pos hc]; trivial
    · rw [if_neg hc]
      have h1 := td _ _ hkh
      have h2 := td _ _ hkw
      refine .cons ⟨by simp, by simp⟩ (.cons ⟨h1.1, ?_⟩ (.cons ⟨h2.1, ?_⟩ (.cons ⟨by simp, by simp⟩ .nil)))
      · dsimp only; omega
      · dsimp only; omega
  · intro idx hidx
    obtain ⟨b, y, xx, o, rfl, hb, hy, hx, ho⟩ := in4 hidx
    unfold SameToValid.run
    dsimp only
    by_cases hc : (op.filter.kh : Int) - op.sh = 0 ∧ (op.filter.kw : Int) - op.sw = 0
    · rw [if_pos hc]
      dsimp only
      rw [hc.1] at hbh
      rw [hc.2] at hbw
      have hbh : tbefore .same (ih * op.sh) op.filter.kh op.sh = 0 := by simpa using hbh
      have hbw : tbefore .same (iw * op.sw) op.filter.kw op.sw = 0 := by simpa using hbw
      unfold tconv
      dsimp only
      rw [hp, hbh, hbw]
      rfl
    · rw [if_neg hc]
      dsimp only
      rw [← hbh, ← hbw]
      unfold sliceT tconv
      simp only [List.map_cons, List.map_nil, List.zipWith_cons_cons, List.zipWith_nil_right, List.getD_cons_zero,
        List.getD_cons_succ, Int.toNat_natCast, Int.toNat_zero, Nat.zero_add]
      rw [hp]
      have e : ∀ out k s, tbefore .valid out k s = 0 := fun _ _ _ => rfl
      simp only [e, ttap_shift]

/-- A kernel smaller than the stride: the slice reaches beyond the `VALID` result. -/
theorem C49_small_kernel_refuted (ih iw : Nat) (op : ConvOp) (r : SameToValid) (hkh : op.filter.kh < op.sh)
    (hr : sameToValid ih iw [1, ih * op.sh, iw * op.sw, op.filter.o] op = some r) : ¬ r.Inside := by
  unfold sameToValid at hr
  by_cases hp : op.padding = .same
  swap
  · rw [if_pos hp] at hr; cases hr
  rw [if_neg (by simp [hp])] at hr
  simp only [List.getD_cons_zero, List.getD_cons_succ] at hr
  have hr := Option.some.inj hr
  subst hr
  unfold SameToValid.Inside
  dsimp only
  rw [if_neg (by omega)]
  intro h
  cases h with
  | cons _ h =>
    cases h with
    | cons h _ =>
      dsimp only at h
      have e : ((ih : Int) - 1) * op.sh + op.filter.kh = ((ih * op.sh : Nat) : Int) + (op.filter.kh - op.sh) := by
        push_cast; ring
      rw [e] at h
      omega

def exT : ConvOp :=
  { padding := .same, sh := 2, sw := 2, dh := 1, dw := 1,
    filter := { o := 1, kh := 3, kw := 3, c := 1, data := [1, 2, 3, 4, 5, 6, 7, 8, 9], qp := .perTensor 1 0 }, bias := none }

example : ∃ r, sameToValid 3 4 [1, 3 * exT.sh, 4 * exT.sw, exT.filter.o] exT = some r ∧ r.slice.isSome = true := ⟨_, rfl, rfl⟩
example : tconv (fun _ _ a => a) 0 3 4 6 8 exT (fun idx => (idx.sum : Int)) [0, 2, 3, 0] = 12 := by decide +kernel

/-- An output that is not `stride` times the input (3 rows from 2 rows with stride 2, allowed by TensorFlow since
`ceil (3 / 2) = 2`): the wrong rows are kept. -/
theorem C49_short_output_refuted :
    ∃ r, sameToValid 2 2 [1, 3, 3, 1] exT = some r ∧
      r.run (fun _ _ a => a) 0 2 2 (fun _ => 1) [0, 0, 0, 0] = 1 ∧
      tconv (fun _ _ a => a) 0 2 2 3 3 exT (fun _ => 1) [0, 0, 0, 0] = 5 :=
  ⟨_, rfl, by decide +kernel, by decide +kernel⟩

end Verif.Conv
