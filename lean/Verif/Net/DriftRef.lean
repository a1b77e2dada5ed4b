import Verif.Net.DriftProps
/-! C112: every network has a run of the reference. -/
namespace Verif.Net
open Verif.Tensor Verif.Move Verif.MemPlan Verif.MemPlan.Conc Verif.Quant

/-- What a run of the reference needs: operators whose reference result is an integer are exact, real results are rounded to the nearest
step or float. -/
noncomputable def QNode.refErr (R : Rt) (n : QNode) : ℝ :=
  match n.kind with
  | .activation _ _ _ => 1 / 2
  | .blob (.dequantize ti) _ => R.b.fErr * (32768 * ti.scale)
  | .blob _ _ => 1 / 2
  | .bconv _ => 1 / 2
  | _ => 0

theorem exists8 (t : Ty) (ht : t.d = 1) (v : List Nat → ℤ) (hv : ∀ idx, -128 ≤ v idx ∧ v idx ≤ 127) :
    ∃ out : List Byte, out.length = t.size ∧ ∀ idx, InShape t.shape idx → tensorOf t out idx = v idx :=
  ⟨bytesOf t fun i => [toByte (v i)], length_bytesOf t _ fun _ => by rw [ht]; rfl, fun idx h => by rw [tensorOf_bytes t ht _ idx h, s8_toByte (hv idx)]⟩

theorem exists16 (t : Ty) (ht : t.d = 2) (v : List Nat → ℤ) (hv : ∀ idx, -32768 ≤ v idx ∧ v idx ≤ 32767) :
    ∃ out : List Byte, out.length = t.size ∧ ∀ idx, InShape t.shape idx → tensor16 t out idx = v idx :=
  ⟨bytesOf t fun i => bytes16 (v i), length_bytesOf t _ fun _ => by rw [ht]; rfl, fun idx h => by
    unfold tensor16
    rw [elemAt_bytesOf t _ (fun _ _ => by rw [ht]; rfl) idx h, s16_bytes16 (hv idx)]⟩

theorem clamp8 {t : Conv.Compile.Types} (tok : t.OK) (r : ℚ → ℤ) (hact : t.act = .none ∨ t.act = .relu) (v : ℤ) :
    -128 ≤ clamp (Conv.actLo t.act r t.outS t.zpo) (Conv.actHi t.act r t.outS t.zpo) v ∧
      clamp (Conv.actLo t.act r t.outS t.zpo) (Conv.actHi t.act r t.outS t.zpo) v ≤ 127 := by
  have := tok.zpo
  unfold clamp
  rcases hact with h | h <;> rw [h] <;> simp only [Conv.actLo, Conv.actHi] <;> omega

theorem clamp16 {t : Conv.Compile.Types} (tok : t.OK16) (r : ℚ → ℤ) (v : ℤ) :
    -32768 ≤ clamp (Conv.Compile.actLo16 t r) (Conv.Compile.actHi16 t r) v ∧ clamp (Conv.Compile.actLo16 t r) (Conv.Compile.actHi16 t r) v ≤ 32767 := by
  unfold clamp Conv.Compile.actLo16 Conv.Compile.actHi16
  rw [tok.act]
  dsimp only
  omega

theorem round_in {lo hi : ℤ} (h : lo ≤ hi) (s : ℝ) : (lo ≤ round (max (lo : ℝ) (min hi s)) ∧ round (max (lo : ℝ) (min hi s)) ≤ hi) ∧
    |((round (max (lo : ℝ) (min hi s)) : ℤ) : ℝ) - max (lo : ℝ) (min hi s)| ≤ 1 / 2 := by
  have h1 : (lo : ℝ) ≤ max (lo : ℝ) (min hi s) := le_max_left _ _
  have h2 : max (lo : ℝ) (min hi s) ≤ hi := max_le (by exact_mod_cast h) (min_le_left _ _)
  obtain ⟨z, ez⟩ : ∃ z, z = max (lo : ℝ) (min hi s) := ⟨_, rfl⟩
  rw [← ez] at h1 h2 ⊢
  have h3 := abs_le.1 (abs_sub_round z)
  refine ⟨⟨?_, ?_⟩, by rw [abs_sub_comm]; exact abs_sub_round z⟩
  · have : ((lo - 1 : ℤ) : ℝ) < round z := by push_cast; linarith [h3.2]
    have : lo - 1 < round z := by exact_mod_cast this
    omega
  · have : (round z : ℝ) < ((hi + 1 : ℤ) : ℝ) := by push_cast; linarith [h3.1]
    have : round z < hi + 1 := by exact_mod_cast this
    omega

theorem round_sat8 (t : XC.QI8) (x : ℝ) : (-128 ≤ round (sat8 t x) ∧ round (sat8 t x) ≤ 127) ∧ |((round (sat8 t x) : ℤ) : ℝ) - sat8 t x| ≤ 1 / 2 := by
  have := round_in (lo := -128) (hi := 127) (by norm_num) (x / t.scale + t.zp)
  push_cast at this
  exact this

theorem round_sat16 (t : QType) (x : ℝ) : (-32768 ≤ round (sat16 t x) ∧ round (sat16 t x) ≤ 32767) ∧ |((round (sat16 t x) : ℤ) : ℝ) - sat16 t x| ≤ 1 / 2 := by
  have := round_in (lo := -32768) (hi := 32767) (by norm_num) (x / t.scale + t.zp)
  push_cast at this
  exact this

theorem isMaxPool_exists (p : Conv.MaxPool) (hp : p.OK) (hv : p.padding = .valid) (x : Conv.Tensor) (hx : ∀ i, -128 ≤ x i ∧ x i ≤ 127) {y xx c : Nat}
    (hy : y < p.oh) (hxx : xx < p.ow) : ∃ v, (-128 ≤ v ∧ v ≤ 127) ∧ Conv.IsMaxPool p x 0 y xx c v := by
  have ho : p.oh = (p.h - p.fh + p.sh) / p.sh := by have := hp.oh; rw [hv] at this; exact this
  have ho' : p.ow = (p.w - p.fw + p.sw) / p.sw := by have := hp.ow; rw [hv] at this; exact this
  have t1 : Conv.tap p.padding p.h p.fh p.sh 1 y 0 = some (y * p.sh + 0) := by
    rw [hv]; exact Conv.tap_valid (Conv.pool_bound hp.sh hp.hh (by rw [← ho]; exact hy) hp.fh)
  have t2 : Conv.tap p.padding p.w p.fw p.sw 1 xx 0 = some (xx * p.sw + 0) := by
    rw [hv]; exact Conv.tap_valid (Conv.pool_bound hp.sw hp.hw (by rw [← ho']; exact hxx) hp.fw)
  obtain ⟨v, ⟨a, b, i, j, q1, q2, q3, q4, rfl⟩, h2⟩ := Int.exists_greatest_of_bdd
    (P := fun u => ∃ a b iy ix, a < p.fh ∧ b < p.fw ∧ Conv.tap p.padding p.h p.fh p.sh 1 y a = some iy ∧
      Conv.tap p.padding p.w p.fw p.sw 1 xx b = some ix ∧ x [0, iy, ix, c] = u)
    ⟨127, by rintro z ⟨a, b, i, j, _, _, _, _, rfl⟩; exact (hx _).2⟩ ⟨_, 0, 0, _, _, hp.fh, hp.fw, t1, t2, rfl⟩
  exact ⟨_, hx _, ⟨a, b, i, j, q1, q2, q3, q4, rfl⟩, fun u hu => h2 u hu⟩

theorem softReal_range (beta : ℝ) (t : XC.QI8) (cols : Nat) (x : List Byte) (k : Nat) : -128 ≤ softReal beta t cols x k ∧ softReal beta t cols x k ≤ 127 := by
  refine ⟨le_min (by norm_num) ?_, min_le_left _ _⟩
  have h1 : 0 ≤ Real.exp (beta * t.deq (s8 (x.getD k 0))) / ∑ c ∈ Finset.range cols, Real.exp (beta * t.deq (s8 (x.getD (k / cols * cols + c) 0))) :=
    div_nonneg (Real.exp_pos _).le (Finset.sum_nonneg fun _ _ => (Real.exp_pos _).le)
  linarith

/-- Every operator has a reference result for all operands. -/
theorem node_ref {R : Rt} {dom : MulArgs → Prop} (hR : R.OK dom) (n : QNode) (T : Nat → Ty) (c : Nat → Bool) (X : Nat → List Byte)
    (hok : n.kind.OK R dom (n.args.map fun v => (T v, c v)) n.ty) (hX : ∀ v ∈ n.args, (X v).length = (T v).size)
    (hbase : ∀ k, n.kind = .base k → (eval R.ext k n.ty (n.args.map fun v => (T v, X v))).length = n.ty.size) :
    ∃ out : List Byte, out.length = n.ty.size ∧ n.Within R (n.refErr R) (n.args.map fun v => (T v, X v)) out := by
  have zero : ∀ {z w : ℤ}, z = w → |((z : ℤ) : ℝ) - (w : ℤ)| ≤ 0 := fun {z w} h => by rw [h, sub_self, abs_zero]
  obtain ⟨kind, args, ty⟩ := n
  cases kind with
  | base k => exact ⟨_, hbase k rfl, rfl⟩
  | binary op act lt rt ot =>
    obtain ⟨a, ca, b, cb, h1, ha, hb, ht, _⟩ := hok
    obtain ⟨out, h1, h2⟩ := exists8 ty ht _ fun idx => (⟨le_max_right _ _, max_le (min_le_right _ _) (by norm_num)⟩ : -128 ≤ XC.quantR ot _ ∧ XC.quantR ot _ ≤ 127)
    exact ⟨out, h1, fun idx hi => zero (h2 idx hi)⟩
  | activation f it ot =>
    obtain ⟨a, ca, h1, ha, ht, _⟩ := hok
    obtain ⟨v, rfl, h2⟩ := map_one h1
    obtain ⟨rfl, rfl⟩ := Prod.mk.inj h2
    have ht : ty = T v := ht
    obtain ⟨out, h1, h2⟩ := exists8 ty (by rw [ht, ha]) (fun idx => round (sat8 ot (f.apply (it.deq (tensorOf (T v) (X v) idx))))) fun idx => (round_sat8 _ _).1
    refine ⟨out, h1, fun idx hi => ?_⟩
    show |((tensorOf ty out idx : ℤ) : ℝ) - _| ≤ _
    rw [h2 idx hi]
    exact (round_sat8 _ _).2
  | conv t l g =>
    obtain ⟨a, ca, h1, ha, ht, tok, _, _, _, _, _, hact, _⟩ := hok
    obtain ⟨v, rfl, h2⟩ := map_one h1
    obtain ⟨rfl, rfl⟩ := Prod.mk.inj h2
    have ht : ty = ⟨[1, l.oh, l.ow, l.oc], 1⟩ := ht
    obtain ⟨out, h1, h2⟩ := exists8 ty (by rw [ht]) (fun idx => Conv.Compile.tflConv R.r t l (tensorOf (T v) (X v)) idx) fun idx => by
      unfold Conv.Compile.tflConv
      split <;> exact clamp8 tok _ (hact.imp id And.left) _
    exact ⟨out, h1, fun idx hi => zero (h2 idx hi)⟩
  | avgPool t p h w oh ow depth g =>
    obtain ⟨a, ca, h1, ha, ht, tok, hact, _⟩ := hok
    obtain ⟨v, rfl, h2⟩ := map_one h1
    obtain ⟨rfl, rfl⟩ := Prod.mk.inj h2
    have ht : ty = ⟨[1, oh, ow, depth], 1⟩ := ht
    obtain ⟨out, h1, h2⟩ := exists8 ty (by rw [ht])
      (fun idx => Conv.avgPool (Conv.Compile.quantOut t R.r) ⟨t.inS, t.zpi, -128, 127⟩ h w p (tensorOf (T v) (X v)) idx)
      fun idx => clamp8 tok _ (hact.imp id And.left) _
    exact ⟨out, h1, fun idx hi => zero (h2 idx hi)⟩
  | fc t f B g =>
    obtain ⟨a, ca, pre, h1, ha, hpre, ht, hp, _, tok, hact, _⟩ := hok
    obtain ⟨v, rfl, h2⟩ := map_one h1
    obtain ⟨rfl, rfl⟩ := Prod.mk.inj h2
    refine ⟨(Conv.fullyConnected (Conv.Compile.rqT t R.r) t.zpi f B ((X v).map s8)).map toByte, ?_, fun k hk => zero ?_⟩
    · show _ = ty.size
      unfold Ty.size
      rw [show ty.d = 1 from ht, show ty.shape.prod = B * f.o from hp, List.length_map]
      unfold Conv.fullyConnected
      simp [List.length_flatMap]
    · have ho : 0 < f.o := by
        rcases Nat.eq_zero_or_pos f.o with h | h
        · rw [h] at hk; simp at hk
        · exact h
      have e : k = k / f.o * f.o + k % f.o := by rw [Nat.mul_comm]; exact (Nat.div_add_mod k f.o).symm
      have q1 : k / f.o < B := Nat.div_lt_of_lt_mul (by rw [Nat.mul_comm]; exact hk)
      have q2 : k % f.o < f.o := Nat.mod_lt _ ho
      have hr : -128 ≤ (Conv.fullyConnected (Conv.Compile.rqT t R.r) t.zpi f B ((X v).map s8)).getD k 0 ∧
          (Conv.fullyConnected (Conv.Compile.rqT t R.r) t.zpi f B ((X v).map s8)).getD k 0 ≤ 127 := by
        rw [e, fc_getD _ _ _ _ _ q1 q2]
        exact clamp8 tok _ hact _
      rw [← getD_map_s8, List.map_map, List.getD_eq_getElem?_getD, List.getElem?_map]
      rw [List.getD_eq_getElem?_getD] at hr
      show _ = (Conv.fullyConnected (Conv.Compile.rqT t R.r) t.zpi f B ((X v).map s8)).getD k 0
      rw [List.getD_eq_getElem?_getD]
      cases hg : (Conv.fullyConnected (Conv.Compile.rqT t R.r) t.zpi f B ((X v).map s8))[k]? with
      | none => rfl
      | some z =>
        rw [hg] at hr
        exact s8_toByte hr
  | maxPool p =>
    obtain ⟨a, ca, h1, ha, ht, pok, hval, _⟩ := hok
    obtain ⟨v, rfl, h2⟩ := map_one h1
    obtain ⟨rfl, rfl⟩ := Prod.mk.inj h2
    have ht : ty = ⟨[1, p.oh, p.ow, p.depth], 1⟩ := ht
    classical
    obtain ⟨out, h1, h2⟩ := exists8 ty (by rw [ht])
      (fun idx => if h : ∃ u : ℤ, (-128 ≤ u ∧ u ≤ 127) ∧ Conv.IsMaxPool p (tensorOf (T v) (X v)) 0 (idx.getD 1 0) (idx.getD 2 0) (idx.getD 3 0) u then h.choose else 0)
      fun idx => by
        split
        · rename_i h
          exact h.choose_spec.1
        · norm_num
    refine ⟨out, h1, fun y x d hy hx hd => ?_⟩
    have hex := isMaxPool_exists p pok hval (tensorOf (T v) (X v)) (fun i => tensorOf_range _ _ _) (c := d) hy hx
    refine ⟨hex.choose, hex.choose_spec.2, zero ?_⟩
    show tensorOf ty out [0, y, x, d] = _
    rw [h2 [0, y, x, d] (by rw [ht]; exact ⟨by norm_num, hy, hx, hd, trivial⟩)]
    exact dif_pos hex
  | reduce sum ti tq axes shape =>
    obtain ⟨a, ca, h1, ha, ht, hp, hi, hq, hlo, hhi, _⟩ := hok
    obtain ⟨v, rfl, h2⟩ := map_one h1
    obtain ⟨rfl, rfl⟩ := Prod.mk.inj h2
    obtain ⟨out, h1, h2⟩ := exists8 ⟨XC.keptShape (XC.reduced axes) 0 shape, 1⟩ rfl (fun idx => reduceSpec R.r sum ti tq axes shape (tensorOf (T v) (X v)) idx)
      fun idx => by
        unfold reduceSpec XC.sumSpec XC.meanSpec QType.q clamp
        rw [hlo, hhi]
        split <;> constructor <;> omega
    refine ⟨out, ?_, fun idx hi => zero (h2 idx hi)⟩
    rw [h1]
    show _ = ty.size
    unfold Ty.size
    rw [show ty.d = 1 from ht, show ty.shape.prod = _ from hp]
  | tconv t h w oh ow op ps =>
    obtain ⟨a, ca, h1, ha, ht, tok, hact, _⟩ := hok
    obtain ⟨v, rfl, h2⟩ := map_one h1
    obtain ⟨rfl, rfl⟩ := Prod.mk.inj h2
    have ht : ty = ⟨[1, oh, ow, op.filter.o], 1⟩ := ht
    obtain ⟨out, h1, h2⟩ := exists8 ty (by rw [ht])
      (fun idx => Conv.tconv (Conv.Compile.rqT t R.r) t.zpi h w oh ow op (tensorOf (T v) (X v)) idx) fun idx => clamp8 tok _ (hact.imp id And.left) _
    exact ⟨out, h1, fun idx hi => zero (h2 idx hi)⟩
  | blob op act =>
    obtain ⟨tok, hok⟩ := hok
    have real16 : ∀ (tq : QType) (F : List Nat → ℝ), ty.d = 2 → ∃ out : List Byte, out.length = ty.size ∧
        ∀ idx, InShape ty.shape idx → |((tensor16 ty out idx : ℤ) : ℝ) - sat16 tq (F idx)| ≤ 1 / 2 := by
      intro tq F ht
      obtain ⟨out, h1, h2⟩ := exists16 ty ht (fun idx => round (sat16 tq (F idx))) fun idx => (round_sat16 _ _).1
      refine ⟨out, h1, fun idx hi => ?_⟩
      rw [h2 idx hi]
      exact (round_sat16 _ _).2
    cases op with
    | binary o t1 t2 tq =>
      obtain ⟨a, b, h1, ha, hb, ht, _⟩ := hok
      obtain ⟨out, h1, h2⟩ := real16 tq _ ht
      exact ⟨out, h1, h2⟩
    | fn f ti tq =>
      obtain ⟨out, h1, h2⟩ := real16 tq _ hok.2.2
      exact ⟨out, h1, h2⟩
    | requantize ti tq =>
      obtain ⟨out, h1, h2⟩ := real16 tq _ hok.2.2
      exact ⟨out, h1, h2⟩
    | quantize tq =>
      obtain ⟨out, h1, h2⟩ := real16 tq _ hok.2.2
      exact ⟨out, h1, fun idx hi _ => h2 idx hi⟩
    | dequantize ti =>
      obtain ⟨_, h1, ht⟩ := hok
      rw [List.map_map] at h1
      obtain ⟨v, rfl, h2⟩ := map_one h1
      have h2 : T v = ⟨ty.shape, 2⟩ := h2
      have ht : ty.d = 4 := ht
      have hl := hX v (by simp)
      obtain ⟨s1, s2⟩ := hR.b.tfl (.dequantize ti) ty.shape.prod [X v] tok ⟨_, rfl, by rw [hl, h2]; rfl⟩
      refine ⟨R.b.tfl (.dequantize ti) [X v], by rw [s1]; show _ = ty.size; unfold Ty.size; rw [ht], fun idx hi => ?_⟩
      have h0 : (0 : ℝ) ≤ R.b.fErr := by exact_mod_cast hR.b.fErr.1
      have s3 := s2 (ravel ty.shape idx) (ravel_lt _ _ hi)
      refine (le_of_eq ?_).trans (s3.trans (mul_le_mul_of_nonneg_left (deq16_abs tok.1 (val16_range _ _)) h0))
      show |R.b.f32 (elemAt ty _ idx) - ((ti.deq (tensor16 (T v) (X v) idx) : ℚ) : ℝ)| = _
      rw [elemAt_word ty ht, tensor16_val (T v) (by rw [h2]), h2]
      rfl
    | softmax beta t shape =>
      obtain ⟨_, h1, ht⟩ := hok
      rw [List.map_map] at h1
      obtain ⟨v, rfl, h2⟩ := map_one h1
      have ht : ty = ⟨shape, 1⟩ := ht
      have hr : ∀ k, (-128 ≤ round (softReal beta t (shape.getLastD 0) (X v) k) ∧ round (softReal beta t (shape.getLastD 0) (X v) k) ≤ 127) ∧
          |((round (softReal beta t (shape.getLastD 0) (X v) k) : ℤ) : ℝ) - softReal beta t (shape.getLastD 0) (X v) k| ≤ 1 / 2 := by
        intro k
        obtain ⟨h1, h2⟩ := softReal_range beta t (shape.getLastD 0) (X v) k
        have := round_in (lo := -128) (hi := 127) (by norm_num) (softReal beta t (shape.getLastD 0) (X v) k)
        push_cast at this
        rw [min_eq_right h2, max_eq_right h1] at this
        exact this
      refine ⟨(List.range shape.prod).map fun k => toByte (round (softReal beta t (shape.getLastD 0) (X v) k)), ?_, fun k hk => ?_⟩
      · rw [List.length_map, List.length_range]
        show _ = ty.size
        rw [ht]
        exact (Nat.mul_one _).symm
      · rw [List.getD_eq_getElem?_getD, List.getElem?_map, List.getElem?_range hk]
        show |((s8 (toByte _) : ℤ) : ℝ) - _| ≤ _
        rw [s8_toByte (hr k).1]
        exact (hr k).2
  | conv16 t l g =>
    obtain ⟨a, ca, h1, ha, ht, tok, hdw, _⟩ := hok
    obtain ⟨v, rfl, h2⟩ := map_one h1
    obtain ⟨rfl, rfl⟩ := Prod.mk.inj h2
    have ht : ty = ⟨[1, l.oh, l.ow, l.oc], 2⟩ := ht
    obtain ⟨out, h1, h2⟩ := exists16 ty (by rw [ht]) (fun idx => Conv.Compile.tflConv16 R.r t l (tensor16 (T v) (X v)) idx) fun idx => clamp16 tok _ _
    exact ⟨out, h1, fun idx hi => zero (h2 idx hi)⟩
  | fc16 t f B g =>
    obtain ⟨a, ca, pre, h1, ha, hpre, ht, hp, _, tok, _⟩ := hok
    obtain ⟨v, rfl, h2⟩ := map_one h1
    obtain ⟨rfl, rfl⟩ := Prod.mk.inj h2
    have hlen : (Conv.fullyConnected (Conv.Compile.rqT16 t R.r) t.zpi f B (vals16 (X v))).length = B * f.o := by
      unfold Conv.fullyConnected
      simp [List.length_flatMap]
    have len2 : ∀ l : List ℤ, (l.flatMap bytes16).length = l.length * 2 := by
      intro l
      induction l with
      | nil => rfl
      | cons a l ih =>
        rw [List.flatMap_cons, List.length_append, ih, List.length_cons, show (bytes16 a).length = 2 from rfl]
        omega
    refine ⟨(Conv.fullyConnected (Conv.Compile.rqT16 t R.r) t.zpi f B (vals16 (X v))).flatMap bytes16, ?_, fun k hk => zero ?_⟩
    · show _ = ty.size
      unfold Ty.size
      rw [show ty.d = 2 from ht, show ty.shape.prod = B * f.o from hp, len2, hlen]
    · have ho : 0 < f.o := by
        rcases Nat.eq_zero_or_pos f.o with h | h
        · rw [h] at hk; simp at hk
        · exact h
      have e : k = k / f.o * f.o + k % f.o := by rw [Nat.mul_comm]; exact (Nat.div_add_mod k f.o).symm
      have q1 : k / f.o < B := Nat.div_lt_of_lt_mul (by rw [Nat.mul_comm]; exact hk)
      have q2 : k % f.o < f.o := Nat.mod_lt _ ho
      have hr : -32768 ≤ (Conv.fullyConnected (Conv.Compile.rqT16 t R.r) t.zpi f B (vals16 (X v))).getD k 0 ∧
          (Conv.fullyConnected (Conv.Compile.rqT16 t R.r) t.zpi f B (vals16 (X v))).getD k 0 ≤ 32767 := by
        rw [e, fc_getD _ _ _ _ _ q1 q2]
        exact clamp16 tok _ _
      have hk' : k < (Conv.fullyConnected (Conv.Compile.rqT16 t R.r) t.zpi f B (vals16 (X v))).length := by rw [hlen]; exact hk
      have hg := List.getElem?_eq_getElem hk'
      show _ = (Conv.fullyConnected (Conv.Compile.rqT16 t R.r) t.zpi f B (vals16 (X v))).getD k 0
      unfold val16
      rw [word_flatMap 2 bytes16 _ (fun _ _ => rfl) k _ hg]
      rw [List.getD_eq_getElem?_getD, hg] at hr ⊢
      exact s16_bytes16 hr
  | bsign zp =>
    obtain ⟨a, ca, pre, w, h1, ha, ht, _⟩ := hok
    obtain ⟨v, rfl, h2⟩ := map_one h1
    obtain ⟨rfl, rfl⟩ := Prod.mk.inj h2
    have ht : ty = ⟨pre ++ [w], 4⟩ := ht
    refine ⟨packBits ty.size fun k => decide (s8 ((X v).getD k 0) < zp), length_packBits _ _, fun k hk => bitOf_packBits _ _ _ ?_⟩
    have hk : k < (T v).size := hk
    rw [ha] at hk
    rw [ht]
    simp only [Ty.size, List.prod_append, List.prod_cons, List.prod_nil, Nat.mul_one] at hk ⊢
    rw [Nat.mul_assoc]
    rw [← Nat.mul_assoc] at hk
    exact hk
  | bconv L =>
    obtain ⟨a, ca, h1, ha, ht, _⟩ := hok
    obtain ⟨v, rfl, h2⟩ := map_one h1
    obtain ⟨rfl, rfl⟩ := Prod.mk.inj h2
    have ht : ty = L.ty := ht
    show ∃ out : List Byte, out.length = ty.size ∧ L.Meets (1 / 2) (X v) out
    rw [ht]
    unfold LConv.Meets
    cases hq : L.f.outQ8 with
    | some q =>
      obtain ⟨scale, zp⟩ := q
      have hty : L.ty = ⟨[1, L.f.oh, L.f.ow, L.f.outDim], 1⟩ := by
        unfold LConv.ty
        rw [hq]
        rfl
      have hoc : L.oc = L.f.outDim := by
        unfold LConv.oc
        rw [hq]
        rfl
      have hr : ∀ y x o, (-128 ≤ round (L.real scale zp (X v) y x o) ∧ round (L.real scale zp (X v) y x o) ≤ 127) ∧
          |((round (L.real scale zp (X v) y x o) : ℤ) : ℝ) - (L.real scale zp (X v) y x o : ℚ)| ≤ 1 / 2 := by
        intro y x o
        obtain ⟨h1, h2⟩ := round_clamp8 ((L.f.postMul.getD o 0 * (max 0 (L.sum (X v) y x o) : ℤ) + L.f.postBias.getD o 0) / scale + zp)
        refine ⟨h1, ?_⟩
        have h3 : |((round (L.real scale zp (X v) y x o) : ℤ) : ℚ) - L.real scale zp (X v) y x o| ≤ 1 / 2 := h2
        have h4 : ((|((round (L.real scale zp (X v) y x o) : ℤ) : ℚ) - L.real scale zp (X v) y x o| : ℚ) : ℝ) ≤ ((1 / 2 : ℚ) : ℝ) := Rat.cast_le.2 h3
        push_cast at h4
        exact h4
      obtain ⟨out, h1, h2⟩ := exists8 L.ty (by rw [hty]) (fun idx => round (L.real scale zp (X v) (idx.getD 1 0) (idx.getD 2 0) (idx.getD 3 0))) fun idx => (hr _ _ _).1
      refine ⟨out, h1, fun y x o hy hx ho => ?_⟩
      have e : s8 ((elemAt L.ty out [0, y, x, o]).headD 0) = round (L.real scale zp (X v) y x o) := h2 [0, y, x, o] (by
        rw [hty]
        rw [hoc] at ho
        exact ⟨by norm_num, hy, hx, ho, trivial⟩)
      rw [e]
      exact (hr y x o).2
    | none =>
      have hty : L.ty = ⟨[1, L.f.oh, L.f.ow, L.f.outDim], 4⟩ := by
        unfold LConv.ty
        rw [hq]
        rfl
      have hoc : L.oc = L.f.outDim * 32 := by
        unfold LConv.oc
        rw [hq]
        rfl
      refine ⟨packBits L.ty.size fun b => decide (L.thr.getD (b % L.oc) 0 < L.negatives (X v) (b / L.oc / L.f.ow) (b / L.oc % L.f.ow) (b % L.oc)),
        length_packBits _ _, fun y x o hy hx ho => ?_⟩
      obtain ⟨p1, p2, p3, p4⟩ := pixel_bits hy hx ho
      rw [bitAt_flat, ← hoc, bitOf_packBits _ _ _ (by
        rw [hty]
        simp only [Ty.size, List.prod_cons, List.prod_nil, Nat.mul_one, Nat.one_mul]
        rw [hoc] at p1 ⊢
        calc _ < _ := p1
          _ = _ := by ring), p2, p3, p4]

end Verif.Net
