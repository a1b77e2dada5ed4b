import Verif.Net.DriftOps
import Verif.Net.Whole
/-! C112: how far a compiled network can be from the reference. -/
namespace Verif.Net
open Verif.Tensor Verif.Move Verif.MemPlan Verif.MemPlan.Conc Verif.Quant

/-! ### The compiled operators are within their tolerances -/

theorem near_tol {R : Rt} {a b : ℤ} (h : Near R a b) : |((a : ℤ) : ℝ) - (b : ℤ)| ≤ if R.cfg.threshold < 1 then 1 else (R.cfg.threshold : ℝ) + 1 := by
  split
  · rename_i ht
    exact_mod_cast h.2 ht
  · have h' : ((|((a : ℤ) : ℚ) - (b : ℤ)| : ℚ) : ℝ) ≤ ((R.cfg.threshold + 1 : ℚ) : ℝ) := by
      have := h.1
      push_cast at this
      exact_mod_cast this
    push_cast at h'
    exact h'

theorem near16_tol {R : Rt} {a b : ℤ} (h : Near16 R a b) : |((a : ℤ) : ℝ) - (b : ℤ)| ≤ (R.lib16.err : ℝ) + 1 / 2 := by
  have h' : ((|((a : ℤ) : ℚ) - (b : ℤ)| : ℚ) : ℝ) ≤ ((R.lib16.err + 1 / 2 : ℚ) : ℝ) := by
    unfold Near16 at h
    push_cast at h
    exact_mod_cast h
  push_cast at h'
  exact h'

theorem best_sat8 {t : XC.QI8} (hs : 0 < t.scale) {x : ℝ} {q : ℤ} (h : XC.Best t x q) : |((q : ℤ) : ℝ) - sat8 t x| ≤ 1 / 2 := by
  obtain ⟨⟨l, u⟩, hb⟩ := h
  have l' : (-128 : ℝ) ≤ q := by exact_mod_cast l
  have u' : (q : ℝ) ≤ 127 := by exact_mod_cast u
  obtain ⟨s, es⟩ : ∃ s, s = x / t.scale + t.zp := ⟨_, rfl⟩
  have hx : ∀ q' : ℤ, |t.deq q' - x| = t.scale * |(q' : ℝ) - s| := by
    intro q'
    unfold XC.QI8.deq
    rw [es, show t.scale * ((q' : ℝ) - t.zp) - x = t.scale * ((q' : ℝ) - (x / t.scale + t.zp)) by field_simp; ring, abs_mul, abs_of_pos hs]
  have hb' : ∀ q' : ℤ, -128 ≤ q' → q' ≤ 127 → |(q : ℝ) - s| ≤ |(q' : ℝ) - s| := by
    intro q' h1 h2
    have := hb q' h1 h2
    rw [hx, hx] at this
    exact le_of_mul_le_mul_left this hs
  unfold sat8
  rw [← es]
  rcases le_total s (-128) with h1 | h1
  · have h2 := hb' (-128) le_rfl (by norm_num)
    rw [abs_of_nonneg (by linarith), abs_of_nonneg (by push_cast; linarith)] at h2
    push_cast at h2
    rw [min_eq_right (by linarith), max_eq_left h1, abs_le]
    constructor <;> linarith
  · rcases le_total 127 s with h2 | h2
    · have h3 := hb' 127 (by norm_num) le_rfl
      rw [abs_of_nonpos (by linarith), abs_of_nonpos (by push_cast; linarith)] at h3
      push_cast at h3
      rw [min_eq_left h2, max_eq_right (by norm_num), abs_le]
      constructor <;> linarith
    · rw [min_eq_right h2, max_eq_right h1]
      have h3 : -128 ≤ round s := by
        have := abs_le.1 (abs_sub_round s)
        have : (-129 : ℝ) < round s := by linarith [this.2]
        have : -129 < round s := by exact_mod_cast this
        omega
      have h4 : round s ≤ 127 := by
        have := abs_le.1 (abs_sub_round s)
        have : (round s : ℝ) < 128 := by linarith [this.1]
        have : round s < 128 := by exact_mod_cast this
        omega
      refine (hb' (round s) h3 h4).trans ?_
      rw [abs_sub_comm]
      exact abs_sub_round s

theorem meets_within {R : Rt} {dom : MulArgs → Prop} (hR : R.OK dom) {n : QNode} {T : Nat → Ty} {c : Nat → Bool} {X : Nat → List Byte}
    (hok : n.kind.OK R dom (n.args.map fun v => (T v, c v)) n.ty) {x : List Byte} (h : n.Meets R (n.args.map fun v => (T v, X v)) x) :
    n.Within R (n.tol R) (n.args.map fun v => (T v, X v)) x := by
  obtain ⟨kind, args, ty⟩ := n
  cases kind with
  | base k => exact h
  | binary op act lt rt ot =>
    intro idx hi
    have := h idx hi
    show _ ≤ (1 : ℝ)
    exact_mod_cast this
  | activation f it ot =>
    obtain ⟨a, ca, h1, ha, ht, hi, ho, _⟩ := hok
    exact fun idx hx => best_sat8 ho.pos (h idx hx)
  | conv t l g => exact fun idx hi => near_tol (h idx hi)
  | avgPool t p a b oh ow depth g => exact fun idx hi => near_tol (h idx hi)
  | fc t f B g => exact fun k hk => near_tol (h.2 k hk)
  | maxPool p => exact fun y x' c hy hx hc => ⟨_, h y x' c hy hx hc, by rw [sub_self, abs_zero]; exact le_rfl⟩
  | reduce sum ti tq axes shape =>
    intro idx hi
    have := h.2 idx hi
    show _ ≤ (1 : ℝ)
    exact_mod_cast this
  | tconv t a b oh ow op ps => exact fun idx hi => near_tol (h idx hi)
  | blob op act =>
    obtain ⟨tok, hok⟩ := hok
    cases op with
    | binary o t1 t2 tq => exact h
    | fn f ti tq =>
      obtain ⟨rfl, _⟩ := hok
      exact h
    | requantize ti tq =>
      obtain ⟨rfl, _⟩ := hok
      exact h
    | quantize tq =>
      obtain ⟨rfl, _⟩ := hok
      exact h
    | dequantize ti =>
      intro idx hi
      refine (h idx hi).trans ?_
      have h0 : (0 : ℝ) ≤ R.b.fErr := by exact_mod_cast hR.b.fErr.1
      exact mul_le_mul_of_nonneg_left (deq16_abs tok.1 (s16_range _)) h0
    | softmax beta t shape =>
      obtain ⟨rfl, _⟩ := hok
      exact h.2
  | conv16 t l g => exact fun idx hi => near16_tol (h idx hi)
  | fc16 t f B g => exact fun k hk => near16_tol (h.2 k hk)
  | bsign zp => exact h
  | bconv L => exact h

/-! ### Whole networks -/

/-- A run of the reference: `ref` are the values of the network; the result of operator number `j` is within `e j` of the reference for the
operands that it had in this run. -/
structure QNetwork.Reference (R : Rt) (Q : QNetwork) (e : Nat → ℝ) (ref : List (List Byte)) : Prop where
  length : ref.length = Q.inputs.length + Q.nodes.length
  sizes : ref.map List.length = Q.types.map Ty.size
  within : ∀ (j : Nat) (n : QNode), Q.nodes[j]? = some n →
    n.Within R (e j) (n.args.map fun v => (Q.types.getD v ⟨[], 0⟩, ref.getD v [])) (ref.getD (Q.inputs.length + j) [])

/-- `D` are bounds for the differences of all values. -/
structure QNetwork.Bounds (R : Rt) (Q : QNetwork) (e D : Nat → ℝ) : Prop where
  inputs : ∀ v < Q.inputs.length, 0 ≤ D v
  nodes : ∀ (j : Nat) (n : QNode), Q.nodes[j]? = some n →
    0 ≤ e j ∧ n.Bound R (n.args.map fun v => Q.types.getD v ⟨[], 0⟩) (n.args.map D) (e j) (D (Q.inputs.length + j))

/-- The floats that are converted to integers are network inputs, and finite. -/
def QNetwork.FiniteIn (R : Rt) (Q : QNetwork) (inputs : List (List Byte)) : Prop :=
  ∀ (j : Nat) (tq : QType) (act : TFL.Act) (args : List Nat) (ty : Ty), Q.nodes[j]? = some ⟨.blob (.quantize tq) act, args, ty⟩ → ∀ v ∈ args,
    v < Q.inputs.length ∧ ∀ idx, InShape (Q.types.getD v ⟨[], 0⟩).shape idx → R.b.finite (elemAt (Q.types.getD v ⟨[], 0⟩) (inputs.getD v []) idx)

theorem nodeOK_at {R : Rt} {dom : MulArgs → Prop} : ∀ (ns : List QNode) (vs : List (Ty × Bool)), QNodesOK R dom ns vs → ∀ (j : Nat) (n : QNode), ns[j]? = some n →
    (∀ v ∈ n.args, v < vs.length + j) ∧
      n.kind.OK R dom (n.args.map fun v => (vs ++ ns.map fun n => (n.ty, n.kind.isConst)).getD v (⟨[], 0⟩, false)) n.ty
  | [], _, _, j, n, hj => by simp at hj
  | m :: ns, vs, h, 0, n, hj => by
    simp only [List.getElem?_cons_zero, Option.some.injEq] at hj
    subst hj
    refine ⟨h.1, ?_⟩
    have := h.2.1
    convert this using 1
    apply List.map_congr_left
    intro v hv
    rw [List.getD_append _ _ _ _ (h.1 v hv)]
  | m :: ns, vs, h, j + 1, n, hj => by
    rw [List.getElem?_cons_succ] at hj
    have ih := nodeOK_at ns _ h.2.2 j n hj
    refine ⟨fun v hv => ?_, ?_⟩
    · have := ih.1 v hv
      rw [List.length_append, List.length_singleton] at this
      omega
    · have := ih.2
      rw [List.append_assoc] at this
      exact this

theorem nodeOK {R : Rt} {dom : MulArgs → Prop} {Q : QNetwork} (hQ : Q.OK R dom) {j : Nat} {n : QNode} (hj : Q.nodes[j]? = some n) :
    (∀ v ∈ n.args, v < Q.inputs.length + j) ∧ ∃ c : Nat → Bool, n.kind.OK R dom (n.args.map fun v => (Q.types.getD v ⟨[], 0⟩, c v)) n.ty := by
  have h := nodeOK_at _ _ hQ.nodes j n hj
  rw [List.length_map] at h
  refine ⟨h.1, fun v => ((Q.inputs.map fun t => (t, false)) ++ Q.nodes.map fun n => (n.ty, n.kind.isConst)).getD v (⟨[], 0⟩, false) |>.2, ?_⟩
  convert h.2 using 1
  apply List.map_congr_left
  intro v _
  refine Prod.ext ?_ rfl
  show Q.types.getD v ⟨[], 0⟩ = (List.getD _ v (⟨[], 0⟩, false)).1
  unfold QNetwork.types
  rw [List.getD_eq_getElem?_getD, List.getD_eq_getElem?_getD]
  have e : Q.inputs ++ Q.nodes.map (·.ty) = ((Q.inputs.map fun t => (t, false)) ++ Q.nodes.map fun n => (n.ty, n.kind.isConst)).map Prod.fst := by
    simp [List.map_map, Function.comp_def]
  rw [e, List.getElem?_map]
  cases ((Q.inputs.map fun t => (t, false)) ++ Q.nodes.map fun n => (n.ty, n.kind.isConst))[v]? <;> rfl

/-- Values of the network, and a run of the reference: all differences are bounded. -/
theorem values_close {R : Rt} {dom : MulArgs → Prop} (hR : R.OK dom) {Q : QNetwork} (hQ : Q.OK R dom) {inputs vals ref : List (List Byte)} {e D : Nat → ℝ}
    (hv : Q.Values R inputs vals) (hr : Q.Reference R e ref) (hB : Q.Bounds R e D)
    (hin : ∀ v < Q.inputs.length, Close R.b (Q.types.getD v ⟨[], 0⟩) (D v) (vals.getD v []) (ref.getD v []))
    (hf : Q.FiniteIn R inputs) (hf' : Q.FiniteIn R (ref.take Q.inputs.length)) :
    ∀ v < Q.inputs.length + Q.nodes.length, 0 ≤ D v ∧ Close R.b (Q.types.getD v ⟨[], 0⟩) (D v) (vals.getD v []) (ref.getD v []) := by
  intro v
  induction v using Nat.strong_induction_on with
  | _ v ih =>
    intro hlt
    by_cases hi : v < Q.inputs.length
    · exact ⟨hB.inputs v hi, hin v hi⟩
    · obtain ⟨j, rfl⟩ : ∃ j, v = Q.inputs.length + j := ⟨v - Q.inputs.length, by omega⟩
      have hj : j < Q.nodes.length := by omega
      have hjn : Q.nodes[j]? = some Q.nodes[j] := List.getElem?_eq_getElem hj
      obtain ⟨n, en⟩ : ∃ n, n = Q.nodes[j] := ⟨_, rfl⟩
      rw [← en] at hjn
      obtain ⟨hargs, c, hok⟩ := nodeOK hQ hjn
      have hty : Q.types.getD (Q.inputs.length + j) ⟨[], 0⟩ = n.ty := by
        unfold QNetwork.types
        rw [List.getD_append_right _ _ _ _ (by omega), Nat.add_sub_cancel_left, List.getD_eq_getElem?_getD, List.getElem?_map, hjn]
        rfl
      obtain ⟨he, h0, hb⟩ := hB.nodes j n hjn
      refine ⟨h0, ?_⟩
      rw [hty]
      rcases hb with ⟨hd, hb⟩ | ⟨hd, hb⟩ | ⟨tame, hb⟩ | ⟨k, hk, hb⟩
      · exact close_trivial8 hd hb _ _
      · exact close_trivial16 hd hb _ _
      rotate_left
      · have e : ∀ l : List (List Byte), n.args.map (fun v => (Q.types.getD v ⟨[], 0⟩, l.getD v [])) =
            (n.args.map fun v => Q.types.getD v ⟨[], 0⟩).zip (n.args.map fun v => l.getD v []) := fun l => by
          rw [List.zip_map']
        have sz : ∀ l : List (List Byte), l.map List.length = Q.types.map Ty.size →
            (n.args.map fun v => l.getD v []).map List.length = (n.args.map fun v => Q.types.getD v ⟨[], 0⟩).map Ty.size := fun l hl => by
          rw [List.map_map, List.map_map]
          exact List.map_congr_left fun v _ => sizes_getD hl v
        have w1 := hv.meets j n hjn
        have w2 := hr.within j n hjn
        unfold QNode.Meets at w1
        unfold QNode.Within at w2
        rw [hk] at w1 w2
        simp only at w1 w2
        rw [w1, w2, e, e]
        refine hb _ _ (sz _ hv.sizes) (sz _ hr.sizes) fun i hi => ?_
        simp only [List.length_map] at hi
        have hm : n.args[i] ∈ n.args := List.getElem_mem hi
        have := (ih _ (hargs _ hm) (by have := hargs _ hm; omega)).2
        simpa [List.getD_eq_getElem?_getD, List.getElem?_eq_getElem hi] using this
      have take : ∀ (l : List (List Byte)) (v : Nat), v < Q.inputs.length → (l.take Q.inputs.length).getD v [] = l.getD v [] := by
        intro l v hv
        rw [List.getD_eq_getElem?_getD, List.getElem?_take_of_lt hv, List.getD_eq_getElem?_getD]
      refine node_close hR n (fun v => Q.types.getD v ⟨[], 0⟩) c (fun v => vals.getD v []) (fun v => ref.getD v []) D hok
        (fun v _ => sizes_getD hv.sizes v) (fun v _ => sizes_getD hr.sizes v)
        (fun v hv => (ih v (hargs v hv) (by have := hargs v hv; omega)).1)
        (fun v hv => (ih v (hargs v hv) (by have := hargs v hv; omega)).2) ?_
        (meets_within hR hok (hv.meets j n hjn)) (hr.within j n hjn) h0 ?_ tame hb
      · intro tq act hk v hva idx hx
        obtain ⟨k, as, t⟩ := n
        have hk : k = .blob (.quantize tq) act := hk
        subst hk
        have f1 := hf j tq act as t hjn v hva
        have f2 := hf' j tq act as t hjn v hva
        have g1 := f1.2 idx hx
        have g2 := f2.2 idx hx
        rw [← hv.inputs, take _ _ f1.1] at g1
        rw [take _ _ f1.1] at g2
        exact ⟨g1, g2⟩
      · intro k hk
        have : n.tol R = 0 := by unfold QNode.tol; rw [hk]
        linarith

end Verif.Net
