import Verif.Conv.Props
/-!
C13 (channel-wise split of a convolution).
-/
namespace Verif.Conv
open Verif.Tensor Verif.Move Verif.Image

theorem splitLoop_sum (d n r : Nat) (h : r ≤ n) : (splitLoop d n r).sum = (n * d + r) * 4 := by
  induction n generalizing r with
  | zero =>
    have : r = 0 := by omega
    subst this; simp [splitLoop]
  | succ n ih =>
    rw [splitLoop]
    by_cases hr : r > 0
    · rw [if_pos hr, List.sum_cons, ih (r - 1) (by omega)]
      obtain ⟨r, rfl⟩ : ∃ r', r = r' + 1 := ⟨r - 1, by omega⟩
      rw [Nat.add_sub_cancel]; ring
    · have : r = 0 := by omega
      subst this
      rw [if_neg (by omega), List.sum_cons, ih 0 (by omega)]; ring

theorem splitLoop_mem (d n r m : Nat) (h : m ∈ splitLoop d n r) : m = d * 4 ∨ (0 < r ∧ m = (d + 1) * 4) := by
  induction n generalizing r with
  | zero => simp [splitLoop] at h
  | succ n ih =>
    rw [splitLoop] at h
    by_cases hr : r > 0
    · rw [if_pos hr] at h
      rcases List.mem_cons.1 h with h | h
      · exact .inr ⟨hr, h⟩
      · rcases ih _ h with h | ⟨h1, h⟩
        · exact .inl h
        · exact .inr ⟨hr, h⟩
    · rw [if_neg hr] at h
      rcases List.mem_cons.1 h with h | h
      · exact .inl h
      · rcases ih _ h with h | ⟨h1, h⟩
        · exact .inl h
        · exact .inr ⟨h1, h⟩

theorem getD_take_drop {α : Type} (l : List α) (e n i : Nat) (z : α) (h : i < n) :
    ((l.drop e).take n).getD i z = l.getD (e + i) z := by
  rw [List.getD_eq_getElem?_getD, List.getElem?_take_of_lt h, List.getElem?_drop, List.getD_eq_getElem?_getD]

theorem splitQP_scale (e n o : Nat) (q : QP) (h : o < n) : (splitQP e n q).scale o = q.scale (e + o) := by
  cases q with
  | perTensor _ _ => rfl
  | perAxis ss zs => exact getD_take_drop _ _ _ _ _ h

theorem splitQP_zp (e n o : Nat) (q : QP) (h : o < n) : (splitQP e n q).zp o = q.zp (e + o) := by
  cases q with
  | perTensor _ _ => rfl
  | perAxis ss zs => exact getD_take_drop _ _ _ _ _ h

theorem splitQP_fits {e n N : Nat} {q : QP} (hq : q.Fits N) (h : e + n ≤ N) : (splitQP e n q).Fits n := by
  cases q with
  | perTensor _ _ => trivial
  | perAxis ss zs =>
    obtain ⟨h1, h2⟩ := hq
    constructor <;> simp only [List.length_take, List.length_drop] <;> omega

theorem splitConv_at {op : ConvOp} {e n o a b c : Nat} (ho : o < n) (ha : a < op.filter.kh) (hb : b < op.filter.kw)
    (hc : c < op.filter.c) : (splitConv op e n).filter.at o a b c = op.filter.at (e + o) a b c := by
  unfold Filter.at Filter.shape splitConv
  dsimp only
  rw [ravel4, ravel4, getD_take_drop]
  · congr 1; ring
  · have h1 := run_lt ho ha hb
    have : ((o * op.filter.kh + a) * op.filter.kw + b + 1) * op.filter.c ≤ n * op.filter.kh * op.filter.kw * op.filter.c :=
      Nat.mul_le_mul_right _ h1
    have e1 : ((o * op.filter.kh + a) * op.filter.kw + b + 1) * op.filter.c =
        ((o * op.filter.kh + a) * op.filter.kw + b) * op.filter.c + op.filter.c := by ring
    have e2 : n * op.filter.kh * op.filter.kw * op.filter.c = n * (op.filter.kh * op.filter.kw * op.filter.c) := by ring
    have e3 : (e + n) * (op.filter.kh * op.filter.kw * op.filter.c) =
        e * (op.filter.kh * op.filter.kw * op.filter.c) + n * (op.filter.kh * op.filter.kw * op.filter.c) := by ring
    omega

theorem splitConv_ok {op : ConvOp} (ok : op.OK) {e n : Nat} (h : e + n ≤ op.filter.o) : (splitConv op e n).OK := by
  refine ⟨?_, ok.depth, splitQP_fits ok.fq h, ?_⟩
  · have := ok.filter
    unfold Filter.OK Filter.shape at *
    rw [prod4] at *
    show ((op.filter.data.drop _).take _).length = n * op.filter.kh * op.filter.kw * op.filter.c
    rw [List.length_take, List.length_drop, this]
    have h1 : (e + n) * (op.filter.kh * op.filter.kw * op.filter.c) ≤ op.filter.o * (op.filter.kh * op.filter.kw * op.filter.c) :=
      Nat.mul_le_mul_right _ h
    have e3 : (e + n) * (op.filter.kh * op.filter.kw * op.filter.c) =
        e * (op.filter.kh * op.filter.kw * op.filter.c) + n * (op.filter.kh * op.filter.kw * op.filter.c) := by ring
    have e2 : n * op.filter.kh * op.filter.kw * op.filter.c = n * (op.filter.kh * op.filter.kw * op.filter.c) := by ring
    have e4 : op.filter.o * op.filter.kh * op.filter.kw * op.filter.c =
        op.filter.o * (op.filter.kh * op.filter.kw * op.filter.c) := by ring
    omega
  · intro b hb
    cases hbb : op.bias with
    | none =>
      have : (splitConv op e n).bias = none := by unfold splitConv; dsimp only; rw [hbb]; rfl
      rw [this] at hb; cases hb
    | some b0 =>
      have hs : (splitConv op e n).bias = some { data := (b0.data.drop e).take n, qp := splitQP e n b0.qp } := by
        unfold splitConv; dsimp only; rw [hbb]; rfl
      rw [hs] at hb
      have := Option.some.inj hb
      subst this
      obtain ⟨h1, h2⟩ := ok.bias b0 hbb
      refine ⟨?_, splitQP_fits h2 h⟩
      show ((b0.data.drop e).take n).length = n
      rw [List.length_take, List.length_drop]; omega

/-- Channel `o` of a part is channel `e + o` of the whole. -/
theorem conv2d_splitConv (rq : Requant) (zpi : Int) (h w : Nat) (op : ConvOp) (hv : op.padding = .valid) (x : Tensor)
    {e n o : Nat} (b y xx : Nat) (ho : o < n) (hn : e + n ≤ op.filter.o) :
    conv2d rq zpi h w op.filter.c (splitConv op e n) x [b, y, xx, o] =
    conv2d rq zpi h w op.filter.c op x [b, y, xx, e + o] := by
  have e0 : (splitConv op e n).filter.qp = splitQP e n op.filter.qp := rfl
  have e1 : (splitConv op e n).filter.c = op.filter.c := rfl
  have e2 : (splitConv op e n).filter.o = n := rfl
  have e3 : (splitConv op e n).filter.kh = op.filter.kh := rfl
  have e4 : (splitConv op e n).filter.kw = op.filter.kw := rfl
  have e5 : (splitConv op e n).padding = op.padding := by rw [hv]; rfl
  have e6 : (splitConv op e n).sh = op.sh := rfl
  have e7 : (splitConv op e n).sw = op.sw := rfl
  have e8 : (splitConv op e n).dh = op.dh := rfl
  have e9 : (splitConv op e n).dw = op.dw := rfl
  have eb : biasAt (splitConv op e n).bias o = biasAt op.bias (e + o) ∧
      ((splitConv op e n).bias.map fun b => b.qp.scale o) = op.bias.map fun b => b.qp.scale (e + o) := by
    unfold splitConv
    dsimp only
    cases op.bias with
    | none => exact ⟨rfl, rfl⟩
    | some b0 => exact ⟨getD_take_drop _ _ _ _ _ ho, congrArg some (splitQP_scale _ _ _ _ ho)⟩
  unfold conv2d
  simp only [List.getD_cons_zero, List.getD_cons_succ]
  rw [e0, e1, e2, e3, e4, e5, e6, e7, e8, e9, eb.1, eb.2, splitQP_scale _ _ _ _ ho, splitQP_zp _ _ _ _ ho,
    group_zero (div_self_le_one _) ho, group_zero (div_self_le_one _) (by omega)]
  congr 2
  apply accum_congr
  intro a ha bb hbb iy ix hiy hix c hc
  rw [splitConv_at ho ha hbb hc]

theorem concat_splitConvs (rq : Requant) (zpi : Int) (h w : Nat) (op : ConvOp) (hv : op.padding = .valid) (x : Tensor)
    (b y xx : Nat) : ∀ (ns : List Nat) (e o : Nat), e + ns.sum ≤ op.filter.o → o < ns.sum →
    concatT 3 ((splitConvs op e ns).map fun q => (q.1, conv2d rq zpi h w op.filter.c q.2 x)) [b, y, xx, o] =
    conv2d rq zpi h w op.filter.c op x [b, y, xx, e + o]
  | [], e, o, _, ho => by simp at ho
  | n :: ns, e, o, hs, ho => by
    rw [List.sum_cons] at hs ho
    rw [splitConvs, List.map_cons, concatT]
    simp only [List.getD_cons_zero, List.getD_cons_succ, List.set_cons_succ, List.set_cons_zero]
    by_cases hc : o < n
    · rw [if_pos hc]
      exact conv2d_splitConv rq zpi h w op hv x b y xx hc (by omega)
    · rw [if_neg hc, concat_splitConvs rq zpi h w op hv x b y xx ns (e + n) (o - n) (by omega) (by omega)]
      have : e + n + (o - n) = e + o := by omega
      rw [this]

theorem splitConvs_fst (op : ConvOp) : ∀ (ns : List Nat) (e : Nat), (splitConvs op e ns).map Prod.fst = ns
  | [], _ => rfl
  | n :: ns, e => by rw [splitConvs, List.map_cons, splitConvs_fst op ns]

theorem splitConvs_ok {op : ConvOp} (ok : op.OK) : ∀ (ns : List Nat) (e : Nat), e + ns.sum ≤ op.filter.o →
    ∀ q ∈ splitConvs op e ns, q.2.OK ∧ q.2.filter.o = q.1
  | [], _, _, q, hq => by simp [splitConvs] at hq
  | n :: ns, e, hs, q, hq => by
    rw [List.sum_cons] at hs
    rw [splitConvs] at hq
    rcases List.mem_cons.1 hq with rfl | hq
    · exact ⟨splitConv_ok ok (by omega), rfl⟩
    · exact splitConvs_ok ok ns (e + n) (by omega) q hq

theorem channelSplit_some {limit : Nat} {op : ConvOp} {parts : List (Nat × ConvOp)}
    (hp : channelSplit limit op = some parts) :
    2 ≤ numSplits op.filter.data.length limit ∧ 2 ≤ op.filter.o / 4 ∧
    parts = splitConvs op 0 (splitSizes op.filter.o (numSplits op.filter.data.length limit)) := by
  unfold channelSplit at hp
  by_cases hc : splitApplies op.filter.data.length limit op.filter.o = true
  · rw [if_pos hc] at hp
    have hp := Option.some.inj hp
    have hc : ¬(numSplits op.filter.data.length limit < 2 ∨ op.filter.o / 4 < 2) := by
      simpa [splitApplies] using hc
    exact ⟨by omega, by omega, hp.symm⟩
  · rw [if_neg hc] at hp; cases hp

theorem splitSizes_sum {batch n : Nat} (h4 : 4 ∣ batch) (hn : 0 < n) : (splitSizes batch n).sum = batch := by
  unfold splitSizes
  dsimp only
  rw [splitLoop_sum _ _ _ (Nat.le_of_lt (Nat.mod_lt _ hn)), Nat.div_add_mod]
  omega

/-- C13.  For a one-group `VALID` convolution whose number of output channels is a multiple of 4: the concatenation along
the channel axis of the smaller convolutions is the original result for every element, the channel counts are multiples
of 4 that add up to the original count, every part has complete constants, and every part is strictly smaller than the
whole (so that repeated splitting stops). -/
theorem C13_channel_split_partial (rq : Requant) (zpi : Int) (limit B h w oh ow : Nat) (op : ConvOp) (ok : op.OK)
    (hv : op.padding = .valid) (h4 : 4 ∣ op.filter.o) (parts : List (Nat × ConvOp))
    (hp : channelSplit limit op = some parts) (x : Tensor) :
    (∀ idx, InShape [B, oh, ow, op.filter.o] idx →
      concatT 3 (parts.map fun q => (q.1, conv2d rq zpi h w op.filter.c q.2 x)) idx =
      conv2d rq zpi h w op.filter.c op x idx) ∧
    (parts.map Prod.fst).sum = op.filter.o ∧ (∀ q ∈ parts, 4 ∣ q.1 ∧ q.1 < op.filter.o ∧ q.2.OK ∧ q.2.filter.o = q.1) := by
  obtain ⟨hn, ht, rfl⟩ := channelSplit_some hp
  generalize numSplits op.filter.data.length limit = n at *
  have hsum := splitSizes_sum h4 (n := n) (by omega)
  refine ⟨?_, by rw [splitConvs_fst]; exact hsum, ?_⟩
  · intro idx hidx
    obtain ⟨b, y, xx, o, rfl, hb, hy, hx, ho⟩ := in4 hidx
    rw [concat_splitConvs rq zpi h w op hv x b y xx _ 0 o (by omega) (by omega), Nat.zero_add]
  · intro q hq
    have hm : q.1 ∈ splitSizes op.filter.o n := by
      have := List.mem_map_of_mem (f := Prod.fst) hq
      rwa [splitConvs_fst] at this
    have hok := splitConvs_ok ok _ 0 (by omega) q hq
    have hdm := Nat.div_add_mod (op.filter.o / 4) n
    have hd : op.filter.o / 4 / n ≤ op.filter.o / 4 / 2 := Nat.div_le_div_left hn (by decide)
    have h2 : 2 * (op.filter.o / 4 / n) ≤ n * (op.filter.o / 4 / n) := Nat.mul_le_mul_right _ hn
    rcases splitLoop_mem _ _ _ _ hm with h | ⟨h1, h⟩
    · exact ⟨by rw [h]; exact Dvd.intro_left _ rfl, by omega, hok⟩
    · exact ⟨by rw [h]; exact Dvd.intro_left _ rfl, by omega, hok⟩

/-- Splitting goes on exactly while the filter has at least twice `limit` elements and at least 8 output channels. -/
theorem C13_stops (limit : Nat) (hl : 0 < limit) (op : ConvOp) :
    channelSplit limit op = none ↔ op.filter.data.length < 2 * limit ∨ op.filter.o < 8 := by
  unfold channelSplit
  have h1 : numSplits op.filter.data.length limit < 2 ↔ op.filter.data.length < 2 * limit := Nat.div_lt_iff_lt_mul hl
  have h2 : op.filter.o / 4 < 2 ↔ op.filter.o < 8 := by omega
  by_cases hc : numSplits op.filter.data.length limit < 2 ∨ op.filter.o / 4 < 2
  · have : splitApplies op.filter.data.length limit op.filter.o = false := by simp only [splitApplies, hc, not_true_eq_false, not_false_eq_true, decide_true, decide_false]
    rw [this]
    simp only [Bool.false_eq_true, if_false, true_iff]
    rw [← h1, ← h2]; exact hc
  · have : splitApplies op.filter.data.length limit op.filter.o = true := by simp only [splitApplies, hc, not_true_eq_false, not_false_eq_true, decide_true, decide_false]
    rw [this]
    simp only [if_true, reduceCtorEq, false_iff]
    rw [← h1, ← h2]; exact hc

/-- The comment in the code promises parts below the limit; a filter of up to twice the limit is left alone. -/
theorem C13_limit_refuted (limit : Nat) (hl : 1 < limit) (op : ConvOp) (h : op.filter.data.length = 2 * limit - 1) :
    channelSplit limit op = none ∧ limit < op.filter.data.length :=
  ⟨(C13_stops limit (by omega) op).2 (.inl (by omega)), by omega⟩

/-- Empty convolutions appear exactly when there are more groups than blocks of four channels. -/
theorem C13_empty_groups (limit : Nat) (op : ConvOp) (parts : List (Nat × ConvOp)) (hp : channelSplit limit op = some parts) :
    (∃ q ∈ parts, q.1 = 0) ↔ op.filter.o / 4 < numSplits op.filter.data.length limit := by
  obtain ⟨hn, ht, rfl⟩ := channelSplit_some hp
  generalize numSplits op.filter.data.length limit = n at *
  have hmem : (∃ q ∈ splitConvs op 0 (splitSizes op.filter.o n), q.1 = 0) ↔ 0 ∈ splitSizes op.filter.o n := by
    rw [← splitConvs_fst op (splitSizes op.filter.o n) 0]
    rw [List.mem_map, splitConvs_fst]
  rw [hmem]
  have hdm := Nat.div_add_mod (op.filter.o / 4) n
  constructor
  · intro h
    rcases splitLoop_mem _ _ _ _ h with h | ⟨_, h⟩
    · refine (Nat.div_eq_zero_iff_lt (by omega)).1 ?_
      generalize op.filter.o / 4 / n = t at h
      omega
    · generalize op.filter.o / 4 / n = t at h
      omega
  · intro h
    have hd : op.filter.o / 4 / n = 0 := Nat.div_eq_of_lt h
    have hr : op.filter.o / 4 % n = op.filter.o / 4 := Nat.mod_eq_of_lt h
    unfold splitSizes
    dsimp only
    rw [hd, hr]
    generalize op.filter.o / 4 = r at *
    clear hdm hd hr ht hp hmem hn
    induction n generalizing r with
    | zero => omega
    | succ n ih =>
      rw [splitLoop]
      by_cases hr : r > 0
      · rw [if_pos hr]
        exact List.mem_cons_of_mem _ (ih (r - 1) (by omega))
      · rw [if_neg hr]; simp

/-- Channels are lost if the number of output channels is not a multiple of four. -/
theorem C13_not_multiple_refuted (limit : Nat) (op : ConvOp) (parts : List (Nat × ConvOp))
    (hp : channelSplit limit op = some parts) (h4 : ¬ 4 ∣ op.filter.o) : (parts.map Prod.fst).sum < op.filter.o := by
  obtain ⟨hn, ht, rfl⟩ := channelSplit_some hp
  rw [splitConvs_fst]
  unfold splitSizes
  dsimp only
  rw [splitLoop_sum _ _ _ (Nat.le_of_lt (Nat.mod_lt _ (by omega))), Nat.div_add_mod]
  omega

/-! A concrete convolution: 1x1 kernel, 12 output channels, 2 input channels, per-channel scales, bias. -/

def exConv : ConvOp :=
  { padding := .valid, sh := 1, sw := 1, dh := 1, dw := 1,
    filter := { o := 12, kh := 1, kw := 1, c := 2, data := (List.range 24).map fun i => (i : Int) - 7,
                qp := .perAxis ((List.range 12).map fun i => (i : ℚ) + 1) (List.replicate 12 0) },
    bias := some { data := (List.range 12).map fun i => 3 * (i : Int), qp := .perTensor 1 0 } }

theorem exConv_ok : exConv.OK :=
  ⟨by unfold Filter.OK; decide, by decide, ⟨by decide, by decide⟩, fun b hb => by
    have := Option.some.inj hb; subst this; exact ⟨by decide, trivial⟩⟩

example : (channelSplit 10 exConv).map (fun l => l.map Prod.fst) = some [8, 4] := by decide +kernel
example : ∃ parts, channelSplit 10 exConv = some parts ∧ 4 ∣ exConv.filter.o ∧ exConv.padding = .valid :=
  ⟨_, rfl, by decide, rfl⟩
example : (padConvInput 4 exConv.filter.c exConv).map Prod.fst = some 2 := by decide +kernel
example : (padConvOutput 16 [1, 5, 5, exConv.filter.o] exConv).map Prod.fst = some 4 := by decide +kernel
/-- The value of one output element is not trivial. -/
example : conv2d (fun s _ a => s.floor * a) 1 5 5 2 exConv (fun idx => (idx.sum : Int)) [0, 2, 3, 11] = 2076 := by
  decide +kernel

/-! ### Groups -/

def groupsConv : ConvOp :=
  { padding := .valid, sh := 1, sw := 1, dh := 1, dw := 1,
    filter := { o := 2, kh := 1, kw := 1, c := 1, data := [1, 1], qp := .perTensor 1 0 }, bias := none }

/-- Two groups, one input channel each: padding the input channels as the pattern does gives a different result. -/
theorem C14_groups_refuted :
    let x : Tensor := fun idx => (idx.getD 3 0 : Int) + 1
    ∃ p op', padConvInput 4 2 groupsConv = some (p, op') ∧
      conv2d (fun _ _ a => a) 0 1 1 2 groupsConv x [0, 0, 0, 1] = 2 ∧
      conv2d (fun _ _ a => a) 0 1 1 (2 + p) op' (padInputT 0 [1, 1, 1, 2] x) [0, 0, 0, 1] = 1 := by
  refine ⟨2, _, rfl, by decide +kernel, by decide +kernel⟩

end Verif.Conv
