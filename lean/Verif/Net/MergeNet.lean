import Verif.Net.Merge
/-! C114: merges in a network. -/
namespace Verif.Net
open Verif.Tensor Verif.Move Verif.MemPlan Verif.MemPlan.Conc Verif.Quant

/-! ### Specification -/

/-- One step of the compiler on a network with the errors `e` of the reference's operators: a rewrite that changes no value (C95), or a merge.  The
conditions of a merge: the operator is TensorFlow Lite's operator between the types of the network, the merged convolution is one that is compiled right
(C80), and for the given inputs the reference's convolution is not saturated where that matters. -/
inductive Merge (R : Rt) (inputs : List (List Byte)) : QNetwork × (Nat → ℝ) → QNetwork × (Nat → ℝ) → Prop
  | rewrite {Q : QNetwork} {e : Nat → ℝ} {N : Network} : Rw patterns Q.seen N → Merge R inputs (Q, e) (Q.rewritten N, carried N e)
  | quantize {Q Q' : QNetwork} {e : Nat → ℝ} {i j k : Nat} {ty : Ty} {t : Conv.Compile.Types} {l : Conv.Compile.Leaf} {g : Conv.Compile.Net} {args : List Nat}
      {ot : QType} :
      mergeQuantize Q i ot = some Q' →
      Q.nodes[i]? = some ⟨.base (.elementwise k), [Q.inputs.length + j], ty⟩ → Q.nodes[j]? = some ⟨.conv t l g, args, ty⟩ →
      IsQuantize R k t.outQ ot → Is8 ot → (t.act = .relu → l.dw = true → ot.zp = -128) →
      (∀ ref, Q.Reference R e ref → ref.take Q.inputs.length = inputs → ∀ idx, InShape ty.shape idx →
        Unsaturated (t.act = .relu) t.outQ ot (e j) (tensorOf ty (ref.getD (Q.inputs.length + j) []) idx)) →
      Merge R inputs (Q, e) (Q', Function.update e i (mergedErr t.outQ ot (e j)))
  | relu {Q Q' : QNetwork} {e : Nat → ℝ} {i j : Nat} {ty : Ty} {t : Conv.Compile.Types} {l : Conv.Compile.Leaf} {g : Conv.Compile.Net} {args : List Nat}
      {ot : QType} :
      mergeReluConv Q i ot = some Q' →
      Q.nodes[i]? = some ⟨.activation .relu ⟨t.outS, t.zpo⟩ ⟨ot.scale, ot.zp⟩, [Q.inputs.length + j], ty⟩ → Q.nodes[j]? = some ⟨.conv t l g, args, ty⟩ →
      Is8 ot →
      (t.outQ = ot ∨ ∀ ref, Q.Reference R e ref → ref.take Q.inputs.length = inputs → ∀ idx, InShape ty.shape idx →
        Unsaturated True t.outQ ot (e j) (tensorOf ty (ref.getD (Q.inputs.length + j) []) idx)) →
      Merge R inputs (Q, e) (Q', Function.update e i (reluErr t.outQ ot (e j) (e i)))
  | minimum {Q Q' : QNetwork} {e : Nat → ℝ} {i j j' k a : Nat} {ip : Bool} {it ot : XC.QI8} {ty tb : Ty} {data : List Byte} :
      mergeMinimum Q i = some Q' →
      Q.nodes[i]? = some ⟨.activation .relu it ot, [Q.inputs.length + j], ty⟩ →
      Q.nodes[j]? = some ⟨.base (.other ip k), [a, Q.inputs.length + j'], ty⟩ → Q.nodes[j']? = some ⟨.base (.const data), [], tb⟩ →
      IsMinimum R k → Q.types.getD a ⟨[], 0⟩ = ty →
      Merge R inputs (Q, e) (Q', e)

/-! ### Proofs -/

theorem replace_at {Q : QNetwork} {i : Nat} {n n' : QNode} (hn : Q.nodes[i]? = some n) : (Q.replace i n').nodes[i]? = some n' := by
  have := (List.getElem?_eq_some_iff.1 hn).1
  simp [QNetwork.replace, this]

theorem replace_other {Q : QNetwork} {i j : Nat} {n' : QNode} (h : i ≠ j) : (Q.replace i n').nodes[j]? = Q.nodes[j]? := by
  simp [QNetwork.replace, h]

theorem replace_types {Q : QNetwork} {i : Nat} {n n' : QNode} (hn : Q.nodes[i]? = some n) (ht : n'.ty = n.ty) : (Q.replace i n').types = Q.types := by
  unfold QNetwork.types QNetwork.replace
  simp only
  congr 1
  apply List.ext_getElem?
  intro j
  simp only [List.getElem?_map, List.getElem?_set]
  have := (List.getElem?_eq_some_iff.1 hn).1
  split
  · next h =>
    subst h
    rw [hn]
    simp [ht]
  · rfl

theorem replace_reference {R : Rt} {Q : QNetwork} {i : Nat} {n n' : QNode} (hn : Q.nodes[i]? = some n) (ht : n'.ty = n.ty) {e : Nat → ℝ}
    {ref : List (List Byte)} (hr : Q.Reference R e ref) {ε : ℝ}
    (hw : n'.Within R ε (n'.args.map fun v => (Q.types.getD v ⟨[], 0⟩, ref.getD v [])) (ref.getD (Q.inputs.length + i) [])) :
    (Q.replace i n').Reference R (Function.update e i ε) ref := by
  refine ⟨?_, by rw [replace_types hn ht]; exact hr.sizes, ?_⟩
  · rw [hr.length]; simp [QNetwork.replace]
  · intro j m hj
    rw [replace_types hn ht]
    show QNode.Within R _ _ _ (ref.getD (Q.inputs.length + j) [])
    by_cases h : i = j
    · subst h
      rw [replace_at hn] at hj
      obtain rfl := Option.some.inj hj
      rw [Function.update_self]
      exact hw
    · rw [replace_other h] at hj
      rw [Function.update_of_ne (Ne.symm h)]
      exact hr.within j m hj

theorem replace_enough {R : Rt} {Q : QNetwork} {i : Nat} {n n' : QNode} (hn : Q.nodes[i]? = some n) {e : Nat → ℝ} (he : Q.Enough R e) {ε : ℝ}
    (hε : n'.refErr R ≤ ε) : (Q.replace i n').Enough R (Function.update e i ε) := by
  intro j m hj
  by_cases h : i = j
  · subst h
    rw [replace_at hn] at hj
    obtain rfl := Option.some.inj hj
    rw [Function.update_self]
    exact hε
  · rw [replace_other h] at hj
    rw [Function.update_of_ne (Ne.symm h)]
    exact he j m hj

theorem replace_ok {R : Rt} {dom : MulArgs → Prop} {Q : QNetwork} (hQ : Q.OK R dom) {i : Nat} {n n' : QNode} (hn : Q.nodes[i]? = some n) (ht : n'.ty = n.ty)
    (hc : n'.kind.isConst = n.kind.isConst) (hb : ∀ v ∈ n'.args, v < Q.inputs.length + i)
    (hok : n'.kind.OK R dom (n'.args.map fun v => ((Q.inputs.map fun t => (t, false)) ++ Q.nodes.map fun n => (n.ty, n.kind.isConst)).getD v (⟨[], 0⟩, false)) n'.ty) :
    (Q.replace i n').OK R dom := by
  have hctx : ((Q.replace i n').nodes.map fun n => (n.ty, n.kind.isConst)) = Q.nodes.map fun n => (n.ty, n.kind.isConst) := by
    apply List.ext_getElem?
    intro j
    unfold QNetwork.replace
    simp only [List.getElem?_map, List.getElem?_set]
    have := (List.getElem?_eq_some_iff.1 hn).1
    split
    · next h =>
      subst h
      rw [hn]
      simp [ht, hc]
    · rfl
  refine ⟨?_, ?_⟩
  · rw [qnodesOK_iff, hctx]
    have hall := (qnodesOK_iff _ _).1 hQ.nodes
    intro j m hj
    by_cases h : i = j
    · subst h
      rw [replace_at hn] at hj
      obtain rfl := Option.some.inj hj
      exact ⟨by rw [List.length_map]; exact hb, hok⟩
    · rw [replace_other h] at hj
      exact hall j m hj
  · intro v hv
    have := hQ.outs v hv
    simpa [QNetwork.replace] using this

theorem producer_at (Q : QNetwork) (j : Nat) : Q.producer (Q.inputs.length + j) = Q.nodes[j]? := by
  unfold QNetwork.producer
  rw [if_neg (by omega), Nat.add_sub_cancel_left]

theorem mergeQuantize_eq {Q Q' : QNetwork} {i j k : Nat} {ty ty' : Ty} {t : Conv.Compile.Types} {l : Conv.Compile.Leaf} {g : Conv.Compile.Net} {args : List Nat}
    {ot : QType} (h : mergeQuantize Q i ot = some Q') (hi : Q.nodes[i]? = some ⟨.base (.elementwise k), [Q.inputs.length + j], ty⟩)
    (hj : Q.nodes[j]? = some ⟨.conv t l g, args, ty'⟩) : Q' = Q.replace i ⟨.conv (t.into ot t.act) l g, args, ty⟩ := by
  unfold mergeQuantize at h
  rw [hi] at h
  simp only [producer_at, hj] at h
  exact (Option.some.inj h).symm

theorem mergeReluConv_eq {Q Q' : QNetwork} {i j : Nat} {ty ty' : Ty} {t : Conv.Compile.Types} {l : Conv.Compile.Leaf} {g : Conv.Compile.Net} {args : List Nat}
    {it o : XC.QI8} {ot : QType} (h : mergeReluConv Q i ot = some Q') (hi : Q.nodes[i]? = some ⟨.activation .relu it o, [Q.inputs.length + j], ty⟩)
    (hj : Q.nodes[j]? = some ⟨.conv t l g, args, ty'⟩) : t.act = .none ∧ l.dw = false ∧ Q' = Q.replace i ⟨.conv (t.into ot .relu) l g, args, ty⟩ := by
  unfold mergeReluConv at h
  rw [hi] at h
  simp only [producer_at, hj] at h
  split at h
  · next hc => exact ⟨hc.1, hc.2, (Option.some.inj h).symm⟩
  · cases h

theorem mergeMinimum_eq {Q Q' : QNetwork} {i j j' k a : Nat} {ip : Bool} {it ot : XC.QI8} {ty ty' tb : Ty} {data : List Byte} (h : mergeMinimum Q i = some Q')
    (hi : Q.nodes[i]? = some ⟨.activation .relu it ot, [Q.inputs.length + j], ty⟩)
    (hj : Q.nodes[j]? = some ⟨.base (.other ip k), [a, Q.inputs.length + j'], ty'⟩) (hj' : Q.nodes[j']? = some ⟨.base (.const data), [], tb⟩) :
    (data ≠ [] ∧ ∀ x ∈ data, x = 127) ∧ Q' = Q.replace i ⟨.activation .relu it ot, [a], ty⟩ := by
  unfold mergeMinimum at h
  rw [hi] at h
  simp only [producer_at, hj, hj'] at h
  split at h
  · next hc => exact ⟨hc, (Option.some.inj h).symm⟩
  · cases h

/-- A convolution computes a real number and quantises it. -/
theorem tflConv_real {r : ℚ → ℤ} (hr : Nearest r) (t : Conv.Compile.Types) (l : Conv.Compile.Leaf) (x : Conv.Tensor) (idx : List Nat) :
    ∃ y : ℚ, ∀ q, Is8 q → Conv.Compile.tflConv r (t.into q .none) l x idx = q.q r y ∧ Conv.Compile.tflConv r (t.into q .relu) l x idx = q.q r (max 0 y) := by
  have key : ∀ (s : ℚ) (acc : ℤ), ∀ q, Is8 q → ∀ b, Conv.Compile.rqT (t.into q .none) r s b acc = q.q r (t.inS * s * acc) ∧
      Conv.Compile.rqT (t.into q .relu) r s b acc = q.q r (max 0 (t.inS * s * acc)) := by
    intro s acc q hq b
    have hz := hq.zp
    have r0 : q.raw r 0 = q.zp := by
      have := q.raw_deq hq.ok hr q.zp
      unfold QType.deq at this
      rwa [sub_self, mul_zero] at this
    have hraw : q.zp + r (t.inS * s / q.scale * acc) = q.raw r (t.inS * s * acc) := by
      unfold QType.raw
      congr 2
      ring
    unfold Conv.Compile.rqT Conv.Compile.Types.into
    simp only [Conv.actLo, Conv.actHi]
    rw [hraw]
    refine ⟨?_, ?_⟩
    · unfold QType.q
      rw [hq.lo, hq.hi]
    · unfold QType.q clamp
      rw [hq.lo, hq.hi]
      rcases le_total 0 (t.inS * s * acc) with hy | hy
      · have := raw_mono q hq.ok hr hy
        rw [max_eq_right hy]
        omega
      · have := raw_mono q hq.ok hr hy
        rw [max_eq_left hy]
        omega
  cases hd : l.dw with
  | true =>
    obtain ⟨s, b, acc, h⟩ : ∃ s b acc, ∀ rq, Conv.dwconv rq t.zpi l.ih l.iw l.op x idx = rq s b acc := ⟨_, _, _, fun _ => rfl⟩
    refine ⟨t.inS * s * acc, fun q hq => ?_⟩
    unfold Conv.Compile.tflConv
    rw [hd, if_pos rfl, if_pos rfl, show (t.into q .none).zpi = t.zpi from rfl, show (t.into q .relu).zpi = t.zpi from rfl, h, h]
    exact key s acc q hq b
  | false =>
    obtain ⟨s, b, acc, h⟩ : ∃ s b acc, ∀ rq, Conv.conv2d rq t.zpi l.ih l.iw l.ic l.op x idx = rq s b acc := ⟨_, _, _, fun _ => rfl⟩
    refine ⟨t.inS * s * acc, fun q hq => ?_⟩
    unfold Conv.Compile.tflConv
    rw [hd, if_neg (by decide), if_neg (by decide), show (t.into q .none).zpi = t.zpi from rfl, show (t.into q .relu).zpi = t.zpi from rfl, h, h]
    exact key s acc q hq b

theorem into_self (t : Conv.Compile.Types) : t.into t.outQ t.act = t := rfl

theorem outQ_is8 {t : Conv.Compile.Types} (h : t.OK) : Is8 t.outQ := ⟨h.outS, h.zpo, rfl, rfl⟩

theorem q_range8 {q : QType} (h : Is8 q) (r : ℚ → ℤ) (x : ℚ) : -128 ≤ q.q r x ∧ q.q r x ≤ 127 := by
  unfold QType.q clamp
  rw [h.lo, h.hi]
  omega

/-- What QUANTIZE does with one element. -/
theorem eval_quantize {R : Rt} {k : Nat} {it ot : QType} (h : IsQuantize R k it ot) (hot : Is8 ot) {ty : Ty} (hd : ty.d = 1) (data : List Byte) {idx : List Nat}
    (hidx : InShape ty.shape idx) : tensorOf ty (eval R.ext (.elementwise k) ty [(ty, data)]) idx = ot.q R.r (it.deq (tensorOf ty data idx)) := by
  have h1 : ∀ i, fit ty.d (R.ext k [elemAt ty data i]) = [toByte (ot.q R.r (it.deq (tensorOf ty data i)))] := by
    intro i
    have hl := length_elemAt ty data i
    rw [hd] at hl
    obtain ⟨b, hb⟩ := List.length_eq_one_iff.1 hl
    unfold tensorOf
    rw [hb, h b, hd]
    rfl
  unfold eval denote
  simp only [List.map_cons, List.map_nil, List.getD_cons_zero, h1]
  rw [tensorOf_bytes ty hd _ idx hidx, s8_toByte (q_range8 hot _ _)]

theorem floor_nonneg {x : ℝ} (h : 0 ≤ x) : (0 : ℝ) ≤ (⌊x⌋ : ℤ) := by exact_mod_cast Int.floor_nonneg.2 h

/-- One step: the network stays well typed, and every run of the reference on the network before is a run on the network after, with the new errors. -/
theorem merge_step {R : Rt} {dom : MulArgs → Prop} (hR : R.OK dom) {inputs : List (List Byte)} {s s' : QNetwork × (Nat → ℝ)} (h : Merge R inputs s s')
    (hQ : s.1.OK R dom) (he : s.1.Enough R s.2) :
    s'.1.OK R dom ∧ s'.1.Enough R s'.2 ∧ s'.1.inputs = s.1.inputs ∧ s'.1.outputs.length = s.1.outputs.length ∧
    ∀ ref, s.1.Reference R s.2 ref → ref.take s.1.inputs.length = inputs →
      ∃ ref', s'.1.Reference R s'.2 ref' ∧ ref'.take s'.1.inputs.length = inputs ∧
        (s'.1.outputs.map fun v => ref'.getD v []) = s.1.outputs.map fun v => ref.getD v [] := by
  cases h with
  | @rewrite Q e N hN =>
    have hN' : Relation.ReflTransGen (Rw patterns) Q.seen N := .single hN
    have hI := inv_rewrites hQ hN'
    refine ⟨rewritten_ok hQ hI, enough_rewritten hQ hN' he, hI.inputs, ?_, fun ref hr hin => ?_⟩
    · obtain ⟨inputs', hin'⟩ : ∃ l : List (List Byte), l.map List.length = Q.inputs.map Ty.size := ⟨Q.inputs.map fun t => List.replicate t.size 0, by simp [List.map_map, Function.comp_def]⟩
      obtain ⟨-, -, -, hres⟩ := C95_rewrites_keep_network hN' (seen_ok hQ)
      have := congrArg List.length (hres (fun _ _ => []) inputs' hin')
      simpa [Network.result, QNetwork.rewritten, QNetwork.seen] using this
    · obtain ⟨ref', h1, h2, h3⟩ := reference_forward hR hQ hN' he hr
      exact ⟨ref', h1, by rw [show (Q.rewritten N).inputs = Q.inputs from hI.inputs]; exact h2.trans hin, h3⟩
  | @quantize Q Q' e i j k ty t l g args ot hm hi hj hk hot hact hsat =>
    have heq := mergeQuantize_eq hm hi hj
    subst heq
    have hQ : Q.OK R dom := hQ
    have he : Q.Enough R e := he
    have hall := (qnodesOK_iff _ _).1 hQ.nodes
    obtain ⟨bi, -⟩ := hall i _ hi
    obtain ⟨bj, okj⟩ := hall j _ hj
    rw [List.length_map] at bi bj
    have hji : j < i := by have := bi (Q.inputs.length + j) (List.mem_singleton.2 rfl); omega
    obtain ⟨a, c, as, ha, hty, tok, hsrc, hl, h1, h2, h3, hact', hscale, limit, hp⟩ := okj
    have hd : ty.d = 1 := by rw [show ty = _ from hty]
    have hej : 0 ≤ e j := he j _ hj
    have hs1 : (0 : ℝ) < t.outS := by exact_mod_cast tok.outS
    have hs2 : (0 : ℝ) < ot.scale := by exact_mod_cast hot.pos
    refine ⟨?_, ?_, rfl, rfl, fun ref hr hin => ⟨ref, ?_, hin, rfl⟩⟩
    · refine replace_ok hQ hi rfl rfl (fun v hv => ?_) ⟨a, c, as, ha, hty, ⟨tok.inS, hot.pos, tok.zpi, hot.zp⟩, hsrc, hl, h1, h2, h3, ?_, hscale, limit, hp⟩
      · have := bj v hv
        omega
      · rcases hact' with hx | ⟨hx, hz⟩
        · exact .inl hx
        · refine .inr ⟨hx, ?_⟩
          cases hdw : l.dw with
          | true => exact .inl (hact hx hdw)
          | false => exact .inr rfl
    · refine replace_enough hi he ?_
      show (0 : ℝ) ≤ mergedErr t.outQ ot (e j)
      refine floor_nonneg ?_
      have : 0 ≤ (t.outQ.scale : ℝ) * (e j + 1 / 2) / ot.scale := div_nonneg (mul_nonneg hs1.le (by linarith)) hs2.le
      linarith
    · have hr : Q.Reference R e ref := hr
      refine replace_reference (n' := ⟨.conv (t.into ot t.act) l g, args, ty⟩) hi rfl hr ?_
      have wj := hr.within j _ hj
      have wi := hr.within i _ hi
      have htj : Q.types.getD (Q.inputs.length + j) ⟨[], 0⟩ = ty := by rw [List.getD_eq_getElem?_getD, types_at hj]; rfl
      have wi : ref.getD (Q.inputs.length + i) [] = eval R.ext (.elementwise k) ty [(Q.types.getD (Q.inputs.length + j) ⟨[], 0⟩, ref.getD (Q.inputs.length + j) [])] := wi
      rw [htj] at wi
      intro idx hidx
      have hidx : InShape ty.shape idx := hidx
      have hsat := hsat ref hr hin idx hidx
      have wj := wj idx hidx
      show |((tensorOf ty (ref.getD (Q.inputs.length + i) []) idx : ℤ) : ℝ) - _| ≤ _
      rw [wi, eval_quantize hk hot hd _ hidx]
      have wj : |((tensorOf ty (ref.getD (Q.inputs.length + j) []) idx : ℤ) : ℝ) - (Conv.Compile.tflConv R.r t l
        (tensorOf ((args.map fun v => (Q.types.getD v ⟨[], 0⟩, ref.getD v [])).getD 0 (⟨[], 0⟩, [])).1
          ((args.map fun v => (Q.types.getD v ⟨[], 0⟩, ref.getD v [])).getD 0 (⟨[], 0⟩, [])).2) idx : ℤ)| ≤ e j := wj
      obtain ⟨y, hy⟩ := tflConv_real hR.r t l (tensorOf ((args.map fun v => (Q.types.getD v ⟨[], 0⟩, ref.getD v [])).getD 0 (⟨[], 0⟩, [])).1
          ((args.map fun v => (Q.types.getD v ⟨[], 0⟩, ref.getD v [])).getD 0 (⟨[], 0⟩, [])).2) idx
      have y1 := hy _ (outQ_is8 tok)
      have y2 := hy _ hot
      rw [← into_self t] at wj
      show |((_ : ℤ) : ℝ) - (Conv.Compile.tflConv R.r (t.into ot t.act) l _ idx : ℤ)| ≤ _
      rcases hact' with hx | ⟨hx, -⟩
      · rw [hx] at wj hsat ⊢
        rw [y1.1] at wj
        rw [y2.1]
        exact quantize_merged hR.r (outQ_is8 tok) hot (fun h => by cases h) wj hsat
      · rw [hx] at wj hsat ⊢
        rw [y1.2] at wj
        rw [y2.2]
        exact quantize_merged hR.r (outQ_is8 tok) hot (fun _ => le_max_left _ _) wj hsat
  | @relu Q Q' e i j ty t l g args ot hm hi hj hot hsat =>
    obtain ⟨hx, hdw, heq⟩ := mergeReluConv_eq hm hi hj
    subst heq
    have hQ : Q.OK R dom := hQ
    have he : Q.Enough R e := he
    have hall := (qnodesOK_iff _ _).1 hQ.nodes
    obtain ⟨bi, -⟩ := hall i _ hi
    obtain ⟨bj, okj⟩ := hall j _ hj
    rw [List.length_map] at bi bj
    have hji : j < i := by have := bi (Q.inputs.length + j) (List.mem_singleton.2 rfl); omega
    obtain ⟨a, c, as, ha, hty, tok, hsrc, hl, h1, h2, h3, hact', hscale, limit, hp⟩ := okj
    have hej : 0 ≤ e j := he j _ hj
    have hei : (1 / 2 : ℝ) ≤ e i := he i _ hi
    have hs1 : (0 : ℝ) < t.outS := by exact_mod_cast tok.outS
    have hs2 : (0 : ℝ) < ot.scale := by exact_mod_cast hot.pos
    refine ⟨?_, ?_, rfl, rfl, fun ref hr hin => ⟨ref, ?_, hin, rfl⟩⟩
    · refine replace_ok hQ hi rfl rfl (fun v hv => ?_)
        ⟨a, c, as, ha, hty, ⟨tok.inS, hot.pos, tok.zpi, hot.zp⟩, hsrc, hl, h1, h2, h3, .inr ⟨rfl, .inr hdw⟩, hscale, limit, hp⟩
      have := bj v hv
      omega
    · refine replace_enough hi he ?_
      show (0 : ℝ) ≤ reluErr t.outQ ot (e j) (e i)
      unfold reluErr
      split
      · exact floor_nonneg (by linarith)
      · refine floor_nonneg ?_
        have : 0 ≤ (t.outQ.scale : ℝ) * (e j + 1 / 2) / ot.scale := div_nonneg (mul_nonneg hs1.le (by linarith)) hs2.le
        linarith
    · have hr : Q.Reference R e ref := hr
      refine replace_reference (n' := ⟨.conv (t.into ot .relu) l g, args, ty⟩) hi rfl hr ?_
      have wj := hr.within j _ hj
      have wi := hr.within i _ hi
      have htj : Q.types.getD (Q.inputs.length + j) ⟨[], 0⟩ = ty := by rw [List.getD_eq_getElem?_getD, types_at hj]; rfl
      intro idx hidx
      have hidx : InShape ty.shape idx := hidx
      have wj := wj idx hidx
      have wi : |((tensorOf ty (ref.getD (Q.inputs.length + i) []) idx : ℤ) : ℝ) - sat8 ⟨ot.scale, ot.zp⟩ (max (((t.outS : ℝ)) *
        (((tensorOf (Q.types.getD (Q.inputs.length + j) ⟨[], 0⟩) (ref.getD (Q.inputs.length + j) []) idx : ℤ) : ℝ) - t.zpo)) 0)| ≤ e i := wi idx hidx
      rw [htj, max_comm] at wi
      have wj : |((tensorOf ty (ref.getD (Q.inputs.length + j) []) idx : ℤ) : ℝ) - (Conv.Compile.tflConv R.r t l
        (tensorOf ((args.map fun v => (Q.types.getD v ⟨[], 0⟩, ref.getD v [])).getD 0 (⟨[], 0⟩, [])).1
          ((args.map fun v => (Q.types.getD v ⟨[], 0⟩, ref.getD v [])).getD 0 (⟨[], 0⟩, [])).2) idx : ℤ)| ≤ e j := wj
      obtain ⟨y, hy⟩ := tflConv_real hR.r t l (tensorOf ((args.map fun v => (Q.types.getD v ⟨[], 0⟩, ref.getD v [])).getD 0 (⟨[], 0⟩, [])).1
          ((args.map fun v => (Q.types.getD v ⟨[], 0⟩, ref.getD v [])).getD 0 (⟨[], 0⟩, [])).2) idx
      rw [← into_self t, hx, (hy _ (outQ_is8 tok)).1] at wj
      show |((tensorOf ty (ref.getD (Q.inputs.length + i) []) idx : ℤ) : ℝ) - (Conv.Compile.tflConv R.r (t.into ot .relu) l _ idx : ℤ)| ≤ _
      rw [(hy _ hot).2]
      exact relu_merged hR.r (outQ_is8 tok) hot wj (tensorOf_range _ _ _) (hsat.imp_right fun h => h ref hr hin idx hidx) wi
  | @minimum Q Q' e i j j' k a ip it ot ty tb data hm hi hj hj' hk hta =>
    obtain ⟨hdata, heq⟩ := mergeMinimum_eq hm hi hj hj'
    subst heq
    have hQ : Q.OK R dom := hQ
    have he : Q.Enough R e := he
    have hall := (qnodesOK_iff _ _).1 hQ.nodes
    obtain ⟨bi, oki⟩ := hall i _ hi
    obtain ⟨bj, -⟩ := hall j _ hj
    rw [List.length_map] at bi bj
    have hji : j < i := by have := bi (Q.inputs.length + j) (List.mem_singleton.2 rfl); omega
    have hupd : e = Function.update e i (e i) := (Function.update_eq_self i e).symm
    have hctx : ∀ v, ((Q.inputs.map (fun t => (t, false)) ++ Q.nodes.map fun n => (n.ty, n.kind.isConst)).getD v (⟨[], 0⟩, false)).1 = Q.types.getD v ⟨[], 0⟩ := by
      intro v
      have e1 : ∀ (vs : List (Ty × Bool)) (v : Nat), (vs.getD v (⟨[], 0⟩, false)).1 = (vs.map (·.1)).getD v ⟨[], 0⟩ := by
        intro vs v
        simp only [List.getD_eq_getElem?_getD, List.getElem?_map]
        cases vs[v]? <;> rfl
      rw [e1]
      simp [QNetwork.types, List.map_map, Function.comp_def]
    have htj : Q.types.getD (Q.inputs.length + j) ⟨[], 0⟩ = ty := by rw [List.getD_eq_getElem?_getD, types_at hj]; rfl
    refine ⟨?_, ?_, rfl, rfl, fun ref hr hin => ⟨ref, ?_, hin, rfl⟩⟩
    · refine replace_ok hQ hi rfl rfl (fun v hv => ?_) ?_
      · obtain rfl := List.mem_singleton.1 hv
        have := bj v (by simp)
        omega
      · refine qok_types (fun b h => by cases h) ?_ oki
        simp only [List.map_cons, List.map_nil, hctx]
        rw [htj, hta]
    · have := replace_enough (n' := ⟨.activation .relu it ot, [a], ty⟩) hi he (ε := e i) (show (1 / 2 : ℝ) ≤ e i from he i _ hi)
      rwa [← hupd] at this
    · have key : (Q.replace i ⟨.activation .relu it ot, [a], ty⟩).Reference R (Function.update e i (e i)) ref := by
        have hr : Q.Reference R e ref := hr
        refine replace_reference (n' := ⟨.activation .relu it ot, [a], ty⟩) hi rfl hr ?_
        have wi := hr.within i _ hi
        have wj := hr.within j _ hj
        have wj' := hr.within j' _ hj'
        -- the constant
        have hc : ref.getD (Q.inputs.length + j') [] = data := by
          obtain ⟨-, okc⟩ := hall j' _ hj'
          have okc : data.length = tb.size := okc.2
          have w : ref.getD (Q.inputs.length + j') [] = eval R.ext (.const data) tb [] := wj'
          rw [w]
          unfold eval denote
          exact bytesOf_elemAt _ _ okc
        have hsa := sizes_getD hr.sizes a
        rw [hta] at hsa
        have hmin : R.ext k [ref.getD a [], data] = ref.getD a [] := by
          rw [hk _ _ hdata.1]
          apply List.ext_getElem
          · simp
          · intro q q1 q2
            simp only [List.length_map, List.length_range] at q1
            rw [List.getElem_map, List.getElem_range]
            have hlt : q % data.length < data.length := Nat.mod_lt _ (List.length_pos_iff.2 hdata.1)
            have h127 : data.getD (q % data.length) 0 = 127 := by
              rw [List.getD_eq_getElem?_getD, List.getElem?_eq_getElem hlt, Option.getD_some]
              exact hdata.2 _ (List.getElem_mem _)
            have h127' : s8 (127 : Byte) = 127 := by decide
            rw [h127, h127', if_pos (s8_range _).2, List.getD_eq_getElem?_getD, List.getElem?_eq_getElem q1, Option.getD_some]
        have hj2 : ref.getD (Q.inputs.length + j) [] = ref.getD a [] := by
          have w : ref.getD (Q.inputs.length + j) [] = eval R.ext (.other ip k) ty
            ([a, Q.inputs.length + j'].map fun v => (Q.types.getD v ⟨[], 0⟩, ref.getD v [])) := wj
          rw [w, eval_opaque]
          · simp only [List.map_cons, List.map_nil, hc, hmin]
          · intro x hx
            obtain ⟨v, -, rfl⟩ := List.mem_map.1 hx
            exact sizes_getD hr.sizes v
          · simp only [List.map_cons, List.map_nil, hc, hmin]
            exact hsa
        simp only [List.map_cons, List.map_nil] at wi ⊢
        rw [htj, hj2] at wi
        rw [hta]
        exact wi
      rwa [← hupd] at key

end Verif.Net
