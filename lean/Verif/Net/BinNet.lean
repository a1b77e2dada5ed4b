import Verif.Net.QWide
/-! C113: binarised operators in compiled networks. -/
namespace Verif.Net
open Verif.Tensor Verif.Move Verif.MemPlan Verif.MemPlan.Conc Verif.Quant

/-- **C113.** In every well-typed network — after any rewriting by the patterns, with any placement of the constants, in the planned arena and
with every interleaving of the threads — `lq.Quantize` packs the signs of its operand, and every binarised convolution computes what Larq's
operator computes from the operand that it gets: exactly if its result is binary, up to the kernel's error if it has 8 bits. -/
theorem C113_binary_network (R : Rt) (dom : MulArgs → Prop) (hR : R.OK dom) (Q : QNetwork) (hQ : Q.OK R dom) (N : Network)
    (h : Relation.ReflTransGen (Rw patterns) Q.seen N) (skip : Nat → Bool)
    (cfg : WCfg) (calls order : List Nat) (consts : Nat → Weights.Const) (W : WFun)
    (hW : W = ((Q.rewritten N).expand R).withWeights skip cfg calls order consts)
    (hv : W.Visited) (hs : W.Stored) (a : ModuleAttrs) (ha : planMemory W.func = some a) (impl : Nat → Impl)
    (ok : ImplOK W.func (onData W.func impl (W.kernels ((Q.rewritten N).sem R) W.file)) impl)
    (hskip : ∀ j, j < W.func.ops.length → impl j = .skip → (W.func.op j).operands = []) (inputs : List (List Byte))
    (hin : inputs.map List.length = Q.inputs.map Ty.size) :
    ∃ vals : List (List Byte), vals.take Q.inputs.length = inputs ∧ vals.map List.length = Q.types.map Ty.size ∧
      (∀ (j : Nat) (zp : ℤ) (v : Nat) (ty : Ty), Q.nodes[j]? = some ⟨.bsign zp, [v], ty⟩ → ∀ k < (Q.types.getD v ⟨[], 0⟩).size,
        bitOf (vals.getD (Q.inputs.length + j) []) k = decide (s8 ((vals.getD v []).getD k 0) < zp)) ∧
      (∀ (j : Nat) (L : LConv) (v : Nat) (ty : Ty), Q.nodes[j]? = some ⟨.bconv L, [v], ty⟩ → ∀ scale zp, L.f.outQ8 = some (scale, zp) →
        ∀ y x o, y < L.f.oh → x < L.f.ow → o < L.f.outDim →
          |(s8 ((vals.getD (Q.inputs.length + j) []).getD ((y * L.f.ow + x) * L.f.outDim + o) 0) : ℝ) - (L.real scale zp (vals.getD v []) y x o : ℝ)| ≤ R.bin.err) ∧
      (∀ (j : Nat) (L : LConv) (v : Nat) (ty : Ty), Q.nodes[j]? = some ⟨.bconv L, [v], ty⟩ → L.f.outQ8 = none →
        ∀ y x o, y < L.f.oh → x < L.f.ow → o < L.f.outDim * 32 →
          bitOf (vals.getD (Q.inputs.length + j) []) ((y * L.f.ow + x) * (L.f.outDim * 32) + o) =
            decide (L.thr.getD o 0 < L.negatives (vals.getD v []) y x o)) ∧
      ∀ (m : Mem) (c : Env) (tr : List (List (List Byte))),
        Run W.func (onData W.func impl (W.kernels ((Q.rewritten N).sem R) W.file)) impl a.offsets W.func.ops 0 (loadInputs a.offsets inputs m) c tr →
          tr.getLast? = some (Q.outputs.map fun v => vals.getD v []) := by
  obtain ⟨vals, ⟨v1, v2, v3, v4⟩, v5⟩ := C106_compiled_network R dom hR Q hQ N h skip cfg calls order consts W hW hv hs a ha impl ok hskip inputs hin
  refine ⟨vals, v2, v3, (fun j zp v ty hj => v4 j _ hj), ?_, ?_, v5⟩
  · intro j L v ty hj scale zp hq y x o hy hx ho
    have h1 : L.Meets R.bin.err (vals.getD v []) (vals.getD (Q.inputs.length + j) []) := v4 j _ hj
    unfold LConv.Meets at h1
    rw [hq] at h1
    have h2 := h1 y x o hy hx (by unfold LConv.oc; rw [hq]; exact ho)
    have hty : L.ty = ⟨[1, L.f.oh, L.f.ow, L.f.outDim], 1⟩ := by
      unfold LConv.ty
      rw [hq]
      rfl
    rw [← tensorOf4 L.f.oh L.f.ow L.f.outDim, ← hty]
    exact h2
  · intro j L v ty hj hq y x o hy hx ho
    have h1 : L.Meets R.bin.err (vals.getD v []) (vals.getD (Q.inputs.length + j) []) := v4 j _ hj
    unfold LConv.Meets at h1
    rw [hq] at h1
    have h2 := h1 y x o hy hx (by unfold LConv.oc; rw [hq]; exact ho)
    rw [bitAt_flat] at h2
    exact h2

/-- `SAME` padding with a pad value other than one is refused, whatever the rest of the operator. -/
theorem C113_same_zero_refused (L : LConv) (hv : L.f.valid = false) (hp : L.padOne = false) (cts : Nat → Nat → List (Nat × Nat)) (threads : Nat) :
    L.lower cts threads = none := by
  have e : L.inner = L.f := by
    unfold LConv.inner LConv.padded
    rw [hp, Bool.and_false, if_neg (by simp)]
  have h : Conv.bLower L.inner = none := by
    rw [e]
    unfold Conv.bLower
    rw [if_neg]
    simp [Conv.checkValid, hv]
  unfold LConv.lower
  rw [h]
  rfl

/-! ### Signs of numbers, convolved -/

/-- The sign of the number with channel `c` that kernel position `(a, b)` reads for output `(y, x)`; outside the image it counts as one. -/
def LConv.sign (L : LConv) (z : ℤ) (img : List Byte) (y x a b c : Nat) : ℤ :=
  let p : Conv.Padding := if L.f.valid then .valid else .same
  match Conv.tap p L.f.ih L.f.kh L.f.sh L.f.dh y a, Conv.tap p L.f.iw L.f.kw L.f.sw L.f.dw x b with
  | some iy, some ix => if s8 (img.getD ((iy * L.f.iw + ix) * L.f.cin + c) 0) < z then -1 else 1
  | _, _ => 1

/-- Sign of a weight: the bit is set for -1. -/
def LConv.weightSign (L : LConv) (o a b c : Nat) : ℤ := if bitOf L.filter (((o * L.f.kh + a) * L.f.kw + b) * L.f.cin + c) then -1 else 1

/-- The convolution of signs with signs. -/
def LConv.signSum (L : LConv) (z : ℤ) (img : List Byte) (y x o : Nat) : ℤ :=
  ∑ a ∈ Finset.range L.f.kh, ∑ b ∈ Finset.range L.f.kw, ∑ c ∈ Finset.range L.f.cin, L.sign z img y x a b c * L.weightSign o a b c

/-- An 8-bit image whose signs are convolved. -/
def signNet (z : ℤ) (L : LConv) : QNetwork where
  inputs := [⟨[1, L.f.ih, L.f.iw, L.f.words * 32], 1⟩]
  nodes := [⟨.bsign z, [0], ⟨[1, L.f.ih, L.f.iw, L.f.words], 4⟩⟩, ⟨.bconv L, [1], L.ty⟩]
  outputs := [2]

theorem signNet_ok {R : Rt} {dom : MulArgs → Prop} {z : ℤ} (hz : -128 ≤ z ∧ z ≤ 127) {L : LConv} (ok : L.OK) : (signNet z L).OK R dom :=
  ⟨⟨by simp [signNet], ⟨_, _, [1, L.f.ih, L.f.iw], L.f.words, rfl, rfl, rfl, hz.1, hz.2⟩, by simp [signNet], ⟨_, _, rfl, rfl, rfl, ok⟩, trivial⟩, by simp [signNet]⟩

theorem weight_sign {L : LConv} (ok : L.OK) (o a b c : Nat) : Conv.pm (L.weight o a b c) = L.weightSign o a b c := by
  unfold LConv.weight LConv.weightSign Conv.pm filterBit
  rw [elemAt_word _ rfl, Conv.ravel4, bitOf_word _ _ _ (Nat.mod_lt _ (by norm_num)), ok.cin]
  have e : (((o * L.f.kh + a) * L.f.kw + b) * L.f.words + c / 32) * 32 + c % 32 = ((o * L.f.kh + a) * L.f.kw + b) * (L.f.words * 32) + c := by
    have := Nat.div_add_mod c 32
    rw [Nat.add_mul, Nat.mul_assoc]
    omega
  rw [e]

theorem tap_lt {p : Conv.Padding} {n k s d y a i : Nat} (h : Conv.tap p n k s d y a = some i) : i < n := by
  unfold Conv.tap at h
  dsimp only at h
  split at h
  · simp only [Option.some.injEq] at h
    omega
  · cases h

/-- Packed signs of an image give the sum of products of signs. -/
theorem sum_signs {L : LConv} (ok : L.OK) (z : ℤ) (img bits : List Byte)
    (hb : ∀ k < L.f.ih * L.f.iw * L.f.cin, bitOf bits k = decide (s8 (img.getD k 0) < z)) (y x o : Nat) : L.sum bits y x o = L.signSum z img y x o := by
  unfold LConv.sum LConv.signSum
  refine Finset.sum_congr rfl fun a _ => Finset.sum_congr rfl fun b _ => Finset.sum_congr rfl fun c hc => ?_
  rw [weight_sign ok]
  congr 1
  unfold LConv.window LConv.sign
  dsimp only
  have hc := Finset.mem_range.1 hc
  cases h1 : Conv.tap (if L.f.valid then .valid else .same) L.f.ih L.f.kh L.f.sh L.f.dh y a with
  | none => rfl
  | some iy =>
    cases h2 : Conv.tap (if L.f.valid then .valid else .same) L.f.iw L.f.kw L.f.sw L.f.dw x b with
    | none => rfl
    | some ix =>
      obtain ⟨p1, -⟩ := pixel_bits (n := L.f.cin) (tap_lt h1) (tap_lt h2) hc
      dsimp only
      rw [bitAt_flat, ← ok.cin, hb _ p1]
      simp only [Conv.pm, decide_eq_true_iff]

theorem negatives_sum (L : LConv) (D : List Byte) (y x o : Nat) : 2 * L.negatives D y x o = (L.f.kh * L.f.kw * L.f.cin : ℕ) - L.sum D y x o := by
  unfold LConv.negatives LConv.sum Conv.mismatches
  have e : ((L.f.kh * L.f.kw * L.f.cin : ℕ) : ℤ) = ∑ a ∈ Finset.range L.f.kh, ∑ b ∈ Finset.range L.f.kw, ∑ c ∈ Finset.range L.f.cin, 1 := by
    simp [Finset.sum_const, Nat.mul_assoc]
  rw [e, Finset.mul_sum, ← Finset.sum_sub_distrib]
  refine Finset.sum_congr rfl fun a _ => ?_
  rw [Finset.mul_sum, ← Finset.sum_sub_distrib]
  refine Finset.sum_congr rfl fun b _ => ?_
  rw [Finset.mul_sum, ← Finset.sum_sub_distrib]
  refine Finset.sum_congr rfl fun c _ => ?_
  cases L.window D y x a b c <;> cases L.weight o a b c <;> rfl

/-- **C113**, end to end: an 8-bit image whose signs are taken and convolved.  The compiled model, in its arena, on any image and any initial
memory, gives for every output the affine transform of the RELU of the sum of products of signs, rounded up to the kernel's error; or, packed,
a bit that is set if more than `thr` products are -1, that is if the sum is less than the number of products minus twice the threshold. -/
theorem C113_signs_convolved (R : Rt) (dom : MulArgs → Prop) (hR : R.OK dom) (z : ℤ) (hz : -128 ≤ z ∧ z ≤ 127) (L : LConv) (ok : L.OK)
    (skip : Nat → Bool) (a : ModuleAttrs) (ha : planMemory (((signNet z L).expand R).func skip) = some a) (img : List Byte)
    (himg : img.length = L.f.ih * L.f.iw * L.f.cin) (m : Mem) (c : Env) :
    ∃ out : List Byte,
      (arenaTrace (((signNet z L).expand R).func skip) (devKernels ((signNet z L).sem R) (((signNet z L).expand R).compile skip).1.ops) a.offsets
        (((signNet z L).expand R).func skip).ops 0 (loadInputs a.offsets [img] m) c).getLast? = some [out] ∧
      (∀ scale zp, L.f.outQ8 = some (scale, zp) → out.length = L.f.oh * L.f.ow * L.f.outDim ∧
        ∀ y x o, y < L.f.oh → x < L.f.ow → o < L.f.outDim →
          |(s8 (out.getD ((y * L.f.ow + x) * L.f.outDim + o) 0) : ℝ) -
            max (-128) (min 127 ((L.f.postMul.getD o 0 * max 0 (L.signSum z img y x o : ℝ) + L.f.postBias.getD o 0) / scale + zp))| ≤ R.bin.err) ∧
      (L.f.outQ8 = none → out.length = L.f.oh * L.f.ow * (L.f.outDim * 4) ∧
        ∀ y x o, y < L.f.oh → x < L.f.ow → o < L.f.outDim * 32 →
          (bitOf out ((y * L.f.ow + x) * (L.f.outDim * 32) + o) = true ↔
            L.signSum z img y x o < (L.f.kh * L.f.kw * L.f.cin : ℕ) - 2 * L.thr.getD o 0)) := by
  have hin : [img].map List.length = (signNet z L).inputs.map Ty.size := by
    simp only [signNet, List.map_cons, List.map_nil, Ty.size, List.prod_cons, List.prod_nil, himg, ok.cin]
    simp [Nat.mul_assoc]
  obtain ⟨vals, v1, v2, v3, v4, v5⟩ := ((C84_quantised_network R dom hR _ (signNet_ok hz ok) skip).2 a ha).2 [img] hin
  have l3 : vals.length = 3 := v1
  match vals, l3, v2, v3, v4, v5 with
  | [d, bits, out], _, v2, v3, v4, v5 =>
    obtain rfl : d = img := by simpa [signNet] using v2
    have hb : ∀ k < L.f.ih * L.f.iw * L.f.cin, bitOf bits k = decide (s8 (d.getD k 0) < z) := by
      have q := v4 0 _ rfl
      intro k hk
      exact q k (by
        show k < 1 * (L.f.ih * (L.f.iw * (L.f.words * 32 * 1))) * 1
        rw [ok.cin] at hk
        simpa [Nat.mul_assoc] using hk)
    have hm : L.Meets R.bin.err bits out := v4 1 _ rfl
    have hlen : out.length = L.ty.size := by
      have := congrArg (fun l => l.getD 2 0) v3
      exact this
    refine ⟨out, v5 m c, ?_, ?_⟩
    · intro scale zp hq
      have hty : L.ty = ⟨[1, L.f.oh, L.f.ow, L.f.outDim], 1⟩ := by
        unfold LConv.ty
        rw [hq]
        rfl
      unfold LConv.Meets at hm
      rw [hq] at hm
      refine ⟨by rw [hlen, hty]; simp [Ty.size, Nat.mul_assoc], fun y x o hy hx ho => ?_⟩
      have h2 := hm y x o hy hx (by unfold LConv.oc; rw [hq]; exact ho)
      rw [← tensorOf4 L.f.oh L.f.ow L.f.outDim, ← hty]
      unfold LConv.real at h2
      rw [sum_signs ok z d bits hb] at h2
      push_cast at h2
      exact h2
    · intro hq
      have hty : L.ty = ⟨[1, L.f.oh, L.f.ow, L.f.outDim], 4⟩ := by
        unfold LConv.ty
        rw [hq]
        rfl
      unfold LConv.Meets at hm
      rw [hq] at hm
      refine ⟨by rw [hlen, hty]; simp [Ty.size, Nat.mul_assoc], fun y x o hy hx ho => ?_⟩
      have h2 := hm y x o hy hx (by unfold LConv.oc; rw [hq]; exact ho)
      rw [bitAt_flat] at h2
      rw [h2, decide_eq_true_iff, ← sum_signs ok z d bits hb]
      have := negatives_sum L bits y x o
      omega

/-! ### Examples -/

/-- Two layers: `SAME` with a packed result, then `VALID` with stride and an 8-bit result. -/
def exL1 : LConv where
  f := { filterI32 := true, outQ8 := none, outI32 := true, relu := false, valid := false, cin := 64, words := 2, ih := 5, iw := 4, oh := 5, ow := 4
         outDim := 8, kh := 3, kw := 3, sh := 1, sw := 1, dh := 1, dw := 1, postMul := [], postBias := [] }
  padOne := true
  filter := List.replicate (256 * 9 * 8) 165
  thr := List.replicate 256 288

def exL2 : LConv where
  f := { filterI32 := true, outQ8 := some (1 / 2, -3), outI32 := false, relu := true, valid := true, cin := 256, words := 8, ih := 5, iw := 4, oh := 2, ow := 3
         outDim := 16, kh := 2, kw := 2, sh := 2, sw := 1, dh := 1, dw := 1, postMul := List.replicate 16 (1 / 10), postBias := List.replicate 16 2 }
  padOne := false
  filter := List.replicate (16 * 4 * 32) 165
  thr := []

theorem exL1_ok : exL1.OK := by
  constructor <;> (try intro s z h) <;> first | decide | cases h | rfl

theorem exL2_ok : exL2.OK := by
  constructor <;> (try intro s z h) <;> first | decide | (cases h; norm_num) | rfl

/-- Signs, two layers and the sign of the result. -/
def exampleB : QNetwork where
  inputs := [⟨[1, 5, 4, 64], 1⟩]
  nodes := [⟨.bsign 4, [0], ⟨[1, 5, 4, 2], 4⟩⟩, ⟨.bconv exL1, [1], exL1.ty⟩, ⟨.bconv exL2, [2], exL2.ty⟩]
  outputs := [3]

/-- The hypotheses of C113 are met: the two layers are taken by an indirect and by a direct kernel, the network is well typed and has a plan. -/
theorem C113_example : exampleB.OK exRt (fun _ => True) ∧ (∃ a, planMemory ((exampleB.expand exRt).func fun _ => false) = some a) ∧
    (exL1.lower exRt.cts exRt.threads).map (fun k => (k.lo.kt, k.ih, k.iw)) = some (.indirectBinary, 7, 6) ∧
    (exL2.lower exRt.cts exRt.threads).map (fun k => (k.lo.kt, k.ih, k.iw)) = some (.directInt8, 5, 4) ∧
    (∃ a, planMemory (((signNet 4 exL1).expand exRt).func fun _ => false) = some a) := by
  have hok : exampleB.OK exRt (fun _ => True) :=
    ⟨⟨by simp [exampleB], ⟨_, _, [1, 5, 4], 2, rfl, rfl, rfl, by norm_num, by norm_num⟩, by simp [exampleB], ⟨_, _, rfl, rfl, rfl, exL1_ok⟩, by simp [exampleB],
      ⟨_, _, rfl, rfl, rfl, exL2_ok⟩, trivial⟩, by simp [exampleB]⟩
  refine ⟨hok, ?_, ?_, ?_, ?_⟩
  · exact (C84_quantised_network exRt _ exRt_ok _ hok fun _ => false).1 0 ⟨by
      show 0 < List.length _
      simp [Func.decls, Network.func, toFunc, QNetwork.expand, exampleB], by
      simp [Func.decl, Func.decls, Network.func, toFunc, QNetwork.expand, exampleB, Ty.size]⟩
  · show (exL1.lower (fun _ d => if d = 0 then [] else [(0, d)]) 1).map _ = _
    decide +kernel
  · show (exL2.lower (fun _ d => if d = 0 then [] else [(0, d)]) 1).map _ = _
    decide +kernel
  · exact (C84_quantised_network exRt _ exRt_ok _ (signNet_ok (by norm_num) exL1_ok) fun _ => false).1 0 ⟨by
      show 0 < List.length _
      simp [Func.decls, Network.func, toFunc, QNetwork.expand, signNet], by
      have h1 : exL1.f.ih = 5 := rfl
      have h2 : exL1.f.iw = 4 := rfl
      have h3 : exL1.f.words = 2 := rfl
      simp [Func.decl, Func.decls, Network.func, toFunc, QNetwork.expand, signNet, Ty.size, h1, h2, h3]⟩

end Verif.Net
