import Verif.Net.Blob
import Mathlib.Analysis.SpecialFunctions.Exp
import Mathlib.Data.List.GetD
/-! C109: the operators with a constant of lib_nn are as accurate as their kernels. -/
namespace Verif.Net
open Verif.Tensor Verif.Move Verif.MemPlan Verif.Quant

theorem s8_range' (b : Byte) : -128 ≤ s8 b ∧ s8 b ≤ 127 := by
  unfold s8 XC.ofU8
  have := b.toNat_lt
  split <;> omega

theorem s16_bytes16 {v : ℤ} (h : -32768 ≤ v ∧ v ≤ 32767) : s16 (bytes16 v) = v := by
  unfold s16 bytes16 s8 XC.ofU8
  simp only [List.getD_cons_zero, List.getD_cons_succ]
  rw [UInt8.toNat_ofNat_of_lt' (by simp; omega), UInt8.toNat_ofNat_of_lt' (by simp; omega)]
  split <;> omega

theorem s16_range (b : List Byte) : -32768 ≤ s16 b ∧ s16 b ≤ 32767 := by
  unfold s16
  have h1 := (b.getD 0 0).toNat_lt
  have h2 := s8_range' (b.getD 1 0)
  omega

theorem val16_range (D : List Byte) (k : Nat) : -32768 ≤ val16 D k ∧ val16 D k ≤ 32767 := s16_range _

theorem length_fit4 (d : Nat) (l : List Byte) : (fit d l).length = d := length_fit d l

/-- A chunk of a buffer made of chunks. -/
theorem word_flatMap {α : Type} (d : Nat) (f : α → List Byte) : ∀ (l : List α), (∀ x ∈ l, (f x).length = d) → ∀ (k : Nat) (x : α), l[k]? = some x →
    word d (l.flatMap f) k = f x
  | [], _, k, x, h => by simp at h
  | y :: ys, hd, 0, x, h => by
    simp only [List.getElem?_cons_zero, Option.some.injEq] at h
    subst h
    have hy := hd y (by simp)
    unfold word fit
    rw [Nat.zero_mul, List.drop_zero, List.flatMap_cons, List.take_append_of_le_length (l₁ := f y) (by omega), List.take_of_length_le (l := f y) (by omega),
      List.take_append_of_le_length (by omega), List.take_of_length_le (by omega)]
  | y :: ys, hd, k + 1, x, h => by
    have hy := hd y (by simp)
    have ih := word_flatMap d f ys (fun z hz => hd z (by simp [hz])) k x (by simpa using h)
    rw [← ih]
    unfold word
    rw [List.flatMap_cons, show (k + 1) * d = (f y).length + k * d by rw [hy]; ring, List.drop_append,
      List.drop_of_length_le (by omega), List.nil_append, Nat.add_sub_cancel_left]

theorem length_softTable {L : BLib} (h : ∀ x, (L.expf x).length = 4) (t : XC.QI8) : (softTable L t).length = 1024 := by
  unfold softTable
  rw [List.length_flatMap, List.map_congr_left (g := fun _ => 4) (fun _ _ => h _), List.map_const', List.sum_replicate, List.length_range]
  rfl

theorem entry_softTable {L : BLib} (h : ∀ x, (L.expf x).length = 4) (t : XC.QI8) (q : ℤ) (h1 : -128 ≤ q) (h2 : q ≤ 127) :
    entryOf L.f32 (softTable L t) q = L.f32 (L.expf (t.deq q)) := by
  unfold entryOf softTable
  rw [word_flatMap 4 _ _ (fun _ _ => h _) (q + 128).toNat (q + 128).toNat (by rw [List.getElem?_range (by omega)])]
  congr 2
  unfold XC.QI8.deq
  have : ((((q + 128).toNat : ℤ) - 128 - t.zp : ℤ)) = q - t.zp := by omega
  rw [this]
  push_cast
  ring

/-- A ratio of positive numbers with relative error. -/
theorem ratio_near {δ a A s S : ℝ} (h0 : 0 ≤ δ) (h1 : δ < 1) (ha : 0 < a) (has : a ≤ s) (hA : |A - a| ≤ δ * a) (hS : |S - s| ≤ δ * s) :
    |A / S - a / s| ≤ 2 * δ / (1 - δ) := by
  have hs : 0 < s := by linarith
  rw [abs_le] at hA hS
  have hSp : (1 - δ) * s ≤ S := by linarith
  have h1' : 0 < 1 - δ := by linarith
  have hS0 : 0 < S := lt_of_lt_of_le (by positivity) hSp
  have e : A / S - a / s = (A * s - a * S) / (S * s) := by field_simp
  rw [e, abs_div, abs_of_pos (show 0 < S * s by positivity), div_le_div_iff₀ (by positivity) h1']
  have hn : |A * s - a * S| ≤ 2 * δ * (a * s) := by
    rw [abs_le]
    constructor <;> nlinarith [mul_pos ha hs]
  have h2 : a * s ≤ s * s := by nlinarith
  have h3 : (1 - δ) * (s * s) ≤ S * s := by nlinarith
  calc |A * s - a * S| * (1 - δ) ≤ 2 * δ * (a * s) * (1 - δ) := by nlinarith
    _ ≤ 2 * δ * (s * s) * (1 - δ) := by
      apply mul_le_mul_of_nonneg_right _ h1'.le
      apply mul_le_mul_of_nonneg_left h2 (by linarith)
    _ = 2 * δ * ((1 - δ) * (s * s)) := by ring
    _ ≤ 2 * δ * (S * s) := mul_le_mul_of_nonneg_left h3 (by linarith)

theorem min_dist (c x y : ℝ) : |min c x - min c y| ≤ |x - y| := by
  rcases le_total c x with a | a <;> rcases le_total c y with b | b <;> simp only [min_eq_left, min_eq_right, a, b] <;>
    rw [abs_le] <;> constructor <;> cases abs_cases (x - y) <;> linarith

/-- Softmax from the table is near softmax. -/
theorem softOf_near {L : BLib} (hL : L.OK) (t : XC.QI8) (ht : ∀ q : ℤ, -128 ≤ q → q ≤ 127 → |t.deq q| ≤ 87) (cols n : Nat) (x : List Byte) (k : Nat) (hc : 1 ≤ cols) :
    |softOf L.f32 (softTable L t) cols x k - softReal 1 t cols x k| ≤ 512 * L.fErr / (1 - L.fErr) := by
  obtain ⟨h0, h1⟩ := hL.fErr
  have h0' : (0 : ℝ) ≤ L.fErr := by exact_mod_cast h0
  have h1' : (L.fErr : ℝ) < 1 := by exact_mod_cast h1
  have ent : ∀ i, |entryOf L.f32 (softTable L t) (s8 (x.getD i 0)) - Real.exp (t.deq (s8 (x.getD i 0)))| ≤ L.fErr * Real.exp (t.deq (s8 (x.getD i 0))) := by
    intro i
    have hr := s8_range' (x.getD i 0)
    rw [entry_softTable hL.expf4 t _ hr.1 hr.2]
    exact hL.expf _ (ht _ hr.1 hr.2)
  unfold softOf softReal
  refine (min_dist _ _ _).trans ?_
  simp only [one_mul]
  have hk : x.getD k 0 = x.getD (k / cols * cols + k % cols) 0 := by rw [Nat.div_add_mod']
  have hle : Real.exp (t.deq (s8 (x.getD k 0))) ≤ ∑ c ∈ Finset.range cols, Real.exp (t.deq (s8 (x.getD (k / cols * cols + c) 0))) := by
    rw [hk]
    exact Finset.single_le_sum (f := fun c => Real.exp (t.deq (s8 (x.getD (k / cols * cols + c) 0)))) (fun _ _ => (Real.exp_pos _).le)
      (Finset.mem_range.2 (Nat.mod_lt _ (by omega)))
  have hsum : |∑ c ∈ Finset.range cols, entryOf L.f32 (softTable L t) (s8 (x.getD (k / cols * cols + c) 0)) -
      ∑ c ∈ Finset.range cols, Real.exp (t.deq (s8 (x.getD (k / cols * cols + c) 0)))| ≤
      L.fErr * ∑ c ∈ Finset.range cols, Real.exp (t.deq (s8 (x.getD (k / cols * cols + c) 0))) := by
    rw [← Finset.sum_sub_distrib, Finset.mul_sum]
    exact (Finset.abs_sum_le_sum_abs _ _).trans (Finset.sum_le_sum fun _ _ => ent _)
  have := ratio_near h0' h1' (Real.exp_pos _) hle (ent k) hsum
  rw [show ∀ u v : ℝ, 256 * u - 128 - (256 * v - 128) = 256 * (u - v) by intros; ring, abs_mul, abs_of_pos (by norm_num : (0:ℝ) < 256)]
  calc (256 : ℝ) * _ ≤ 256 * (2 * L.fErr / (1 - L.fErr)) := mul_le_mul_of_nonneg_left this (by norm_num)
    _ = _ := by ring

theorem entry_pos {L : BLib} (hL : L.OK) (t : XC.QI8) (ht : ∀ q : ℤ, -128 ≤ q → q ≤ 127 → |t.deq q| ≤ 87) (q : ℤ) (h1 : -128 ≤ q) (h2 : q ≤ 127) :
    0 < entryOf L.f32 (softTable L t) q := by
  rw [entry_softTable hL.expf4 t q h1 h2]
  have h := hL.expf _ (ht q h1 h2)
  have h3 : (L.fErr : ℝ) < 1 := by exact_mod_cast hL.fErr.2
  have h4 := Real.exp_pos (t.deq q)
  rw [abs_le] at h
  nlinarith [h.1]

theorem sat16_eq {t : QType} (h : Sym16 t) (x : ℝ) : sat16 t x = max (-32768) (min 32767 (x / t.scale)) := by
  unfold sat16
  rw [h.zp]
  simp

theorem deq_sym {t : QType} (h : Sym16 t) (q : ℤ) : t.deq q = t.scale * q := by
  unfold QType.deq
  rw [h.zp]
  simp

/-- Error of the xcore operators, in steps. -/
noncomputable def BlobOp.xcTol (L : BLib) : BlobOp → ℝ
  | .fn _ _ _ => L.limit
  | .softmax _ _ _ => (L.err : ℝ) + 512 * L.fErr / (1 - L.fErr)
  | _ => L.err

theorem BlobOp.Spec.mono {L : BLib} {op : BlobOp} {n : Nat} {ins : List (List Byte)} {out : List Byte} {e e' : ℝ} (h : op.Spec L n ins out e) (he : e ≤ e') :
    op.Spec L n ins out e' := by
  cases op with
  | dequantize ti => exact h
  | quantize tq => exact ⟨h.1, fun k hk hf => (h.2 k hk hf).trans he⟩
  | _ => exact ⟨h.1, fun k hk => (h.2 k hk).trans he⟩

theorem wide_some {f : ActFn} {a : XC.Activation} (h : f.wide = some a) : f.apply = a.apply := by
  cases f with
  | relu1 => cases h
  | tabled b => cases b <;> simp only [ActFn.wide, Option.some.injEq, reduceCtorEq] at h <;> subst h <;> rfl

/-- The operator that replaces. -/
theorem kern_spec {L : BLib} (hL : L.OK) (op : BlobOp) (n : Nat) (ins : List (List Byte)) (ht : op.TypesOK) (hs : op.Sizes n ins) (c : List Byte)
    (hc : op.const L = some c) : op.Spec L n ins (L.kern op.code (ins ++ [c])) (op.xcTol L) := by
  cases op with
  | binary o t1 t2 tq =>
    obtain ⟨a, b, rfl, ha, hb⟩ := hs
    obtain ⟨h1, h2, h3⟩ := ht
    have hk := hL.binary (XC.lowerBin o t1 t2 tq) c n a b hc ha hb
    have hcode : BlobOp.code (.binary o t1 t2 tq) = if (XC.lowerBin o t1 t2 tq).mul then .mul else .add := by cases o <;> rfl
    rw [← hcode] at hk
    refine ⟨hk.1, fun k hk' => ?_⟩
    have := hk.2 k hk'
    unfold XC.BinI16.Gives at this
    have hx : (XC.lowerBin o t1 t2 tq).exact (val16 a k) (val16 b k) = o.real (t1.deq (val16 a k)) (t2.deq (val16 b k)) / tq.scale := by
      rw [deq_sym h1, deq_sym h2]
      cases o <;> simp only [XC.lowerBin, XC.BinI16.exact, XC.BinOp.real] <;> simp <;> ring
    rw [hx] at this
    rw [sat16_eq h3]
    have := (Rat.cast_le (K := ℝ)).2 this
    push_cast at this
    exact this
  | fn f ti tq =>
    obtain ⟨a, rfl, ha⟩ := hs
    obtain ⟨h1, h2⟩ := ht
    change (f.wide.bind fun a => (XC.lookupI16 L.gen L.limit a.apply ti.scale tq.scale).map L.quadBytes) = some c at hc
    cases hw : f.wide with
    | none => rw [hw] at hc; cases hc
    | some g =>
      rw [hw] at hc
      simp only [Option.bind_some, Option.map_eq_some_iff] at hc
      obtain ⟨t, hq, rfl⟩ := hc
      have ht : t = L.gen g.apply ti.scale tq.scale := by
        unfold XC.lookupI16 at hq
        dsimp only at hq
        split at hq
        · cases hq
        · exact (Option.some.inj hq).symm
      have hl := hL.lookup t n a (by rw [ht]; exact hL.genRange _ _ _) ha
      refine ⟨hl.1, fun k hk => ?_⟩
      show |((val16 (L.kern .lookup [a, L.quadBytes t]) k : ℤ) : ℝ) - _| ≤ _
      rw [hl.2 k hk, sat16_eq h2, wide_some hw]
      have hr := val16_range a k
      have := XC.C58_lookup_i16 L.gen hL.gen L.limit g.apply ti.scale tq.scale t hq _ hr.1 hr.2
      simp only [List.cons_append, List.nil_append, List.getD_cons_zero, deq_sym h1]
      push_cast
      exact this
  | requantize ti tq =>
    obtain ⟨a, rfl, ha⟩ := hs
    obtain ⟨h1, h2⟩ := ht
    have := hL.requantize _ _ c n a hc ha
    refine ⟨this.1, fun k hk => ?_⟩
    have := this.2 k hk
    rw [sat16_eq h2]
    simp only [List.getD_cons_zero, deq_sym h1]
    push_cast at this ⊢
    exact this
  | quantize tq =>
    obtain ⟨a, rfl, ha⟩ := hs
    have := hL.quantize _ c n a hc ha
    refine ⟨this.1, fun k hk hf => ?_⟩
    have := this.2 k hk hf
    rw [sat16_eq ht]
    exact this
  | dequantize ti =>
    obtain ⟨a, rfl, ha⟩ := hs
    obtain ⟨h1, h2, h3⟩ := ht
    have := hL.dequantize _ c n a hc h2 h3 ha
    refine ⟨this.1, fun k hk => ?_⟩
    have := this.2 k hk
    simp only [List.getD_cons_zero, deq_sym h1]
    exact this
  | softmax beta t shape =>
    obtain ⟨a, rfl, ha, hn⟩ := hs
    obtain ⟨h1, h2, h3⟩ := ht
    change (XC.lowerSoftmax beta shape).map (fun _ => softTable L t) = some c at hc
    rw [Option.map_eq_some_iff] at hc
    obtain ⟨sm, hsm, rfl⟩ := hc
    have hC := XC.C59_softmax beta shape h3
    have hbeta : beta = 1 := hC.1 (by rw [hsm]; simp)
    subst hbeta
    have hlast : shape.dropLast.prod * shape.getLastD 0 = shape.prod := by
      rw [List.getLastD_eq_getLast?, List.getLast?_eq_getLast_of_ne_nil h2, Option.getD_some]
      conv_rhs => rw [← List.dropLast_append_getLast h2]
      simp
    have hcols : 1 ≤ shape.getLastD 0 := by
      rw [List.getLastD_eq_getLast?, List.getLast?_eq_getLast_of_ne_nil h2, Option.getD_some]
      exact h3 _ (List.getLast_mem h2)
    have hpos := entry_pos hL t h1
    have hlen := length_softTable hL.expf4 t
    have fin : ∀ (cols : Nat) (out : List Byte), cols = shape.getLastD 0 → (out.length = n ∧ ∀ k < n, |(s8 (out.getD k 0) : ℝ) - softOf L.f32 (softTable L t) cols a k| ≤ L.err) →
        BlobOp.Spec L (.softmax 1 t shape) n [a] out ((L.err : ℝ) + 512 * L.fErr / (1 - L.fErr)) := by
      intro cols out e h
      refine ⟨h.1, fun k hk => ?_⟩
      have x1 := h.2 k hk
      have x2 := softOf_near hL t h1 cols n a k (by omega)
      rw [← e]
      simp only [List.getD_cons_zero, Rat.cast_one]
      have := abs_add_le ((s8 (out.getD k 0) : ℝ) - softOf L.f32 (softTable L t) cols a k) (softOf L.f32 (softTable L t) cols a k - softReal 1 t cols a k)
      rw [sub_add_sub_cancel] at this
      linarith
    cases sm with
    | single =>
      have hp := hC.2.1 hsm
      have hcode : BlobOp.code (.softmax 1 t shape) = .softmax := by
        show (if XC.lowerSoftmax 1 shape = some .batched then Code.batchedSoftmax (shape.getLastD 0) else .softmax) = _
        rw [hsm, if_neg (by simp)]
      rw [hcode]
      refine fin n _ (by rw [hn, ← hlast, hp, one_mul]) ?_
      exact hL.softmax _ n a hlen hpos ha
    | batched =>
      have hcode : BlobOp.code (.softmax 1 t shape) = .batchedSoftmax (shape.getLastD 0) := by
        show (if XC.lowerSoftmax 1 shape = some .batched then Code.batchedSoftmax (shape.getLastD 0) else .softmax) = _
        rw [hsm, if_pos rfl]
      rw [hcode]
      refine fin _ _ rfl ?_
      exact hL.batched _ _ n a hlen hpos ha hcols (by rw [hn, ← hlast]; exact Nat.mul_mod_left _ _)

theorem xcTol_le (L : BLib) (op : BlobOp) : op.xcTol L ≤ op.tol L := by
  cases op <;> exact le_max_left _ _

theorem tflErr_le (L : BLib) (op : BlobOp) : (L.tflErr : ℝ) ≤ op.tol L := by
  cases op <;> exact le_max_right _ _

/-- The operator, replaced or not. -/
theorem run_spec {L : BLib} (hL : L.OK) (op : BlobOp) (n : Nat) (ins : List (List Byte)) (ht : op.TypesOK) (hs : op.Sizes n ins) :
    op.Spec L n ins (op.kernel L (ins ++ (op.const L).toList)) (op.tol L) := by
  unfold BlobOp.kernel
  cases h : op.const L with
  | none =>
    simp only [Option.toList_none, List.append_nil]
    exact (hL.tfl op n ins ht hs).mono (tflErr_le L op)
  | some c => exact (kern_spec hL op n ins ht hs c h).mono (xcTol_le L op)

/-! ### Fused activations -/

theorem max_dist (c x y : ℝ) : |max c x - max c y| ≤ |x - y| := by
  rcases le_total c x with a | a <;> rcases le_total c y with b | b <;> simp only [max_eq_left, max_eq_right, a, b] <;>
    rw [abs_le] <;> constructor <;> cases abs_cases (x - y) <;> linarith

theorem clamp_dist (lo hi x y : ℝ) : |max lo (min hi x) - max lo (min hi y)| ≤ |x - y| := (max_dist _ _ _).trans (min_dist _ _ _)

/-- Saturating before a clamp to an interval around 0 does not matter. -/
theorem sat_clamp (lo hi v : ℝ) (h1 : lo ≤ 0) (h2 : 0 ≤ hi) :
    max (-32768) (min 32767 (max lo (min hi (max (-32768) (min 32767 v))))) = max (-32768) (min 32767 (max lo (min hi v))) := by
  rcases le_total v (-32768) with a | a
  · rw [min_eq_right (show v ≤ 32767 by linarith), max_eq_left a, min_eq_right (show (-32768 : ℝ) ≤ hi by linarith), min_eq_right (show v ≤ hi by linarith)]
    rcases le_total lo (-32768) with b | b
    · rw [max_eq_right b]
      rw [min_eq_right (by norm_num : (-32768 : ℝ) ≤ 32767), max_self, max_eq_left]
      exact (min_le_right _ _).trans (max_le b a)
    · rw [max_eq_left b, max_eq_left (a.trans b)]
  · rcases le_total v 32767 with b | b
    · rw [min_eq_right b, max_eq_right a]
    · rw [min_eq_left b, max_eq_right (by norm_num : (-32768 : ℝ) ≤ 32767)]
      rcases le_total hi 32767 with c | c
      · rw [min_eq_left c, min_eq_left (c.trans b)]
      · rw [min_eq_right c, max_eq_right (show lo ≤ (32767 : ℝ) by linarith), min_self, min_eq_left (le_max_of_le_right (le_min c b))]

theorem sat_max (v : ℝ) : max (-32768) (min 32767 (max 0 (max (-32768) (min 32767 v)))) = max (-32768) (min (32767 : ℝ) (max 0 v)) := by
  rcases le_total v 0 with a | a
  · rw [min_eq_right (show v ≤ 32767 by linarith), max_eq_left (max_le (by norm_num) a), max_eq_left a]
  · rw [max_eq_right (a := (-32768 : ℝ)) (b := min 32767 v) (le_min (by norm_num) (by linarith)), max_eq_right (le_min (by norm_num) a), max_eq_right a, ← min_assoc, min_self]

/-- An activation that clamps does not enlarge the distance between saturated values. -/
theorem fused_sat {t : QType} (h : Sym16 t) (act : TFL.Act) (y x : ℝ) :
    |sat16 t (fusedReal act (t.scale * y)) - sat16 t (fusedReal act x)| ≤ |y - sat16 t x| := by
  have hs : (0 : ℝ) < t.scale := by exact_mod_cast h.pos
  rw [sat16_eq h, sat16_eq h, sat16_eq h]
  have key : ∀ (F : ℝ → ℝ), (∀ u v, |F u - F v| ≤ |u - v|) → (∀ v, max (-32768) (min 32767 (F (max (-32768) (min 32767 v)))) = max (-32768) (min 32767 (F v))) →
      (∀ u, fusedReal act u / t.scale = F (u / t.scale)) →
      |max (-32768) (min 32767 (fusedReal act (t.scale * y) / t.scale)) - max (-32768) (min 32767 (fusedReal act x / t.scale))| ≤
        |y - max (-32768) (min 32767 (x / t.scale))| := by
    intro F h1 h2 h3
    rw [h3, h3, ← h2 (x / t.scale), mul_div_cancel_left₀ _ hs.ne']
    exact (clamp_dist _ _ _ _).trans (h1 _ _)
  cases act with
  | none =>
    refine key (fun u => u) (fun _ _ => le_refl _) (fun v => ?_) (fun _ => rfl)
    have h1 : max (-32768) (min 32767 v) ≤ (32767 : ℝ) := max_le (by norm_num) (min_le_left _ _)
    rw [min_eq_right h1, max_eq_right (le_max_left _ _)]
  | relu =>
    refine key (fun u => max 0 u) (fun _ _ => max_dist _ _ _) sat_max (fun u => ?_)
    simp only [fusedReal]
    rw [← max_div_div_right hs.le, zero_div]
  | relu1 =>
    refine key (fun u => max (-1 / t.scale) (min (1 / t.scale) u)) (fun _ _ => clamp_dist _ _ _ _)
      (fun v => sat_clamp _ _ v (div_nonpos_of_nonpos_of_nonneg (by norm_num) hs.le) (by positivity)) (fun u => ?_)
    simp only [fusedReal]
    rw [← max_div_div_right hs.le, ← min_div_div_right hs.le]
  | relu6 =>
    refine key (fun u => max 0 (min (6 / t.scale) u)) (fun _ _ => clamp_dist _ _ _ _)
      (fun v => sat_clamp _ _ v (le_refl _) (by positivity)) (fun u => ?_)
    simp only [fusedReal]
    rw [← max_div_div_right hs.le, ← min_div_div_right hs.le, zero_div]

end Verif.Net
