import Verif.Net.Concurrent
import Verif.Net.QRewrite

/-! # C106: the compiler's stages one after another

`buildXCorePassPipeline` (xformer/Transforms/Passes.cpp 22-60) rewrites the network that it is given, replaces its operators, moves
constants to the weights file and plans the arena; the model runs on threads. -/

namespace Verif.Net

open Verif.MemPlan Verif.MemPlan.Conc

/-- **C106**. A quantised network, rewritten by the transpose patterns in any order, with its operators replaced, its constants in the weights
file and its arena planned, computes on threads, in whatever order they advance and whatever the arena holds before, values that meet the
reference semantics of the network *as it was given to the compiler*. -/
theorem C106_compiled_network (R : Rt) (dom : MulArgs → Prop) (hR : R.OK dom) (Q : QNetwork) (hQ : Q.OK R dom) (N : Network)
    (h : Relation.ReflTransGen (Rw patterns) Q.seen N) (skip : Nat → Bool)
    (cfg : WCfg) (calls order : List Nat) (consts : Nat → Weights.Const) (W : WFun)
    (hW : W = ((Q.rewritten N).expand R).withWeights skip cfg calls order consts)
    (hv : W.Visited) (hs : W.Stored) (a : ModuleAttrs) (ha : planMemory W.func = some a) (impl : Nat → Impl)
    (ok : ImplOK W.func (onData W.func impl (W.kernels ((Q.rewritten N).sem R) W.file)) impl)
    (hskip : ∀ j, j < W.func.ops.length → impl j = .skip → (W.func.op j).operands = []) (inputs : List (List Byte))
    (hin : inputs.map List.length = Q.inputs.map Ty.size) :
    ∃ vals : List (List Byte), Q.Values R inputs vals ∧
      ∀ (m : Mem) (c : Env) (tr : List (List (List Byte))),
        Run W.func (onData W.func impl (W.kernels ((Q.rewritten N).sem R) W.file)) impl a.offsets W.func.ops 0 (loadInputs a.offsets inputs m) c tr →
          tr.getLast? = some (Q.outputs.map fun v => vals.getD v []) := by
  have hI := inv_rewrites hQ h
  have hok := rewritten_ok hQ hI
  obtain ⟨vals, v1, v2, v3, v4, v5⟩ := C102_quantised_with_weights R dom hR _ hok skip cfg calls order consts W hW hv hs a ha impl ok hskip inputs
    (by rw [hin]; simp [QNetwork.rewritten, hI.inputs])
  obtain ⟨vals', w1, w2⟩ := values_transfer hR hQ h hin ⟨v1, v2, v3, v4⟩
  refine ⟨vals', w1, ?_⟩
  intro m c tr hr
  rw [v5 m c tr hr, w2]
  rfl

/-! ### The hypotheses are met by every network -/

/-- The bytes of the constants, all stored densely. -/
def denseConsts (ops : List DOp) (p : Nat) : Weights.Const :=
  match ops[p]? with
  | some ⟨.const data, _, ty⟩ => .dense ((fit ty.size data).map fun b => (b.toNat : Int))
  | _ => .dense []

theorem denseConsts_stored (N : Network) (skip : Nat → Bool) (cfg : WCfg) (calls order : List Nat) :
    (N.withWeights skip cfg calls order (denseConsts (N.compile skip).1.ops)).Stored := by
  intro p data args ty h
  have h' : (N.compile skip).1.ops[p]? = some ⟨.const data, args, ty⟩ := h
  show (Weights.constBytes (denseConsts (N.compile skip).1.ops p)).map UInt8.ofInt = _
  unfold denseConsts
  rw [h']
  simp only [Weights.constBytes, List.map_map]
  have : (UInt8.ofInt ∘ fun b : Byte => (b.toNat : Int)) = id := by
    funext b
    simp only [UInt8.ofInt, Function.comp]
    have h1 : ((b.toNat : Int) % (2 : Int) ^ 8).toNat = b.toNat := by have := b.toNat_lt; omega
    rw [h1]
    exact UInt8.ofNat_toNat
  rw [this, List.map_id]

theorem selected_calls (cfg : WCfg) (ops : List DOp) (calls : List Nat) : ∀ p ∈ selected cfg ops calls, p ∈ calls := by
  intro p hp
  unfold selected at hp
  obtain ⟨x, hx, rfl⟩ := List.mem_map.1 hp
  exact (List.of_mem_zip (List.mem_filter.1 hx).1).1

theorem calls_visited (N : Network) (skip : Nat → Bool) (cfg : WCfg) (calls : List Nat) (consts : Nat → Weights.Const) :
    (N.withWeights skip cfg calls calls consts).Visited := selected_calls _ _ _

/-- One of two threads: the bytes of the results at even or odd positions. -/
def halfProg (kern : List (List Byte) → List (List Byte)) (sizes : List Nat) (par : Nat) : List Conc.Step :=
  sizes.zipIdx.flatMap fun x => ((List.range x.1).filter fun p => p % 2 == par).map fun p => .emit x.2 p fun ins _ => ((kern ins).getD x.2 []).getD p 0

/-- Two threads for every operator that does not work in place. -/
def halves (f : Func) (k : Kernels) (j : Nat) : Impl :=
  if (f.op j).overlappable then .whole else .threads none 0 [halfProg (k j) (f.op j).resultSizes 0, halfProg (k j) (f.op j).resultSizes 1]

theorem halves_noScratch (f : Func) (k : Kernels) (v : Nat) : isScratch f (halves f k) v = false := by
  unfold isScratch halves
  cases (f.decl v).defPos with
  | none => rfl
  | some j => simp only; split <;> rename_i h <;> first | rfl | (split at h <;> cases h)

theorem merge_none (S : Nat → List Byte) (scr : Nat → Bool) (hs : ∀ v, scr v = false) (vs : List Nat) (ins : List (List Byte))
    (h : ins.length = vs.length) : merge scr S vs ins = ins := by
  induction vs generalizing ins with
  | nil => rw [List.length_eq_zero_iff.1 h]; rfl
  | cons v vs ih =>
    cases ins with
    | nil => simp at h
    | cons b ins => simp [merge, hs, ih ins (by simpa using h)]

theorem mem_halfProg {kern : List (List Byte) → List (List Byte)} {sizes : List Nat} {par : Nat} {st : Conc.Step} (h : st ∈ halfProg kern sizes par) :
    ∃ i n p, sizes[i]? = some n ∧ p < n ∧ p % 2 = par ∧ st = .emit i p fun ins _ => ((kern ins).getD i []).getD p 0 := by
  unfold halfProg at h
  obtain ⟨x, hx, h⟩ := List.mem_flatMap.1 h
  obtain ⟨p, hp, rfl⟩ := List.mem_map.1 h
  obtain ⟨hp, hq⟩ := List.mem_filter.1 hp
  exact ⟨x.2, x.1, p, List.mem_zipIdx_iff_getElem?.1 hx, List.mem_range.1 hp, by simpa using hq, rfl⟩

theorem halfProg_mem (kern : List (List Byte) → List (List Byte)) {sizes : List Nat} {i n p : Nat} (hi : sizes[i]? = some n) (hp : p < n) :
    Conc.Step.emit i p (fun ins _ => ((kern ins).getD i []).getD p 0) ∈ halfProg kern sizes (p % 2) := by
  unfold halfProg
  refine List.mem_flatMap.2 ⟨(n, i), List.mem_zipIdx_iff_getElem?.2 hi, List.mem_map.2 ⟨p, List.mem_filter.2 ⟨List.mem_range.2 hp, by simp⟩, rfl⟩⟩

theorem solo_of {ins : List (List Byte)} {i p : Nat} {b : Byte} {q : List Conc.Step} {sec : List Byte} {cur : Byte}
    (h1 : ∀ st ∈ q, ∃ i' p' g, st = Conc.Step.emit i' p' g ∧ (i' = i → p' = p → ∀ s, g ins s = b)) (h2 : cur = b ∨ ∃ st ∈ q, st.writes i p) :
    soloValue ins i p q sec cur = b := by
  induction q generalizing cur with
  | nil =>
    rcases h2 with h | ⟨st, h, -⟩
    · exact h
    · simp at h
  | cons st q ih =>
    obtain ⟨i', p', g, rfl, hg⟩ := h1 st List.mem_cons_self
    simp only [soloValue]
    apply ih fun st hst => h1 st (List.mem_cons_of_mem _ hst)
    by_cases hc : i' = i ∧ p' = p
    · left; rw [if_pos hc]; exact hg hc.1 hc.2 _
    · rw [if_neg hc]
      rcases h2 with h | ⟨st, hst, hw⟩
      · exact .inl h
      · rcases List.mem_cons.1 hst with rfl | hst
        · exact absurd hw hc
        · exact .inr ⟨st, hst, hw⟩

theorem halves_ok (f : Func) (k : Kernels) (hk : Kernels.Fit f k) : ImplOK f (onData f (halves f k) k) (halves f k) := by
  refine ⟨?_, ?_, ?_, ?_, ?_⟩
  · intro j _ ho
    left
    unfold halves
    rw [if_pos ho]
  · intro j ps _ h
    unfold halves at h
    split at h <;> cases h
  · intro v q h
    rw [halves_noScratch] at h
    cases h
  · intro j sc B ps _ h
    unfold halves at h
    split at h
    · cases h
    · injection h with h1 h2 h3
      subst h1; subst h2
      rfl
  · intro j sc B ps hj h
    unfold halves at h
    split at h
    · cases h
    injection h with h1 h2 h3
    subst h1; subst h2; subst h3
    refine ⟨?_, ?_⟩
    · intro q hq st hst
      have : ∃ par, q = halfProg (k j) (f.op j).resultSizes par := by
        simp only [List.mem_cons, List.not_mem_nil, or_false] at hq
        rcases hq with rfl | rfl <;> exact ⟨_, rfl⟩
      obtain ⟨par, rfl⟩ := this
      obtain ⟨i, n, p, h1, h2, -, rfl⟩ := mem_halfProg hst
      exact ⟨n, h1, h2⟩
    · intro ins i out p b hl ho hb
      have hm : merge (isScratch f (halves f k)) (scratchValue f k) (f.op j).operands ins = ins := by
        apply merge_none _ _ (halves_noScratch f k)
        rw [hl]
        unfold dataOperands
        rw [List.filter_eq_self.2 (by intro v _; simp [halves_noScratch])]
      have hkj : onData f (halves f k) k j ins = k j ins := by
        unfold onData
        rw [hm]
      rw [hkj] at ho
      have hsz : (f.op j).resultSizes[i]? = some out.length := by
        rw [← hk j ins hj, List.getElem?_map, ho]; rfl
      have hp : p < out.length := (List.getElem?_eq_some_iff.1 hb).1
      have hval : ((k j ins).getD i []).getD p 0 = b := by
        rw [List.getD_eq_getElem?_getD (l := k j ins), ho, Option.getD_some, List.getD_eq_getElem?_getD, hb, Option.getD_some]
      refine ⟨p % 2, halfProg (k j) (f.op j).resultSizes (p % 2), ?_, ?_, ?_⟩
      · have : p % 2 = 0 ∨ p % 2 = 1 := by omega
        rcases this with h | h <;> rw [h] <;> rfl
      · intro t' q' ht hq st hst hw
        have : q' = halfProg (k j) (f.op j).resultSizes t' := by
          match t', hq with
          | 0, hq => exact (Option.some.inj hq).symm
          | 1, hq => exact (Option.some.inj hq).symm
          | n + 2, hq => simp at hq
        subst this
        obtain ⟨i', n, p', -, -, h3, rfl⟩ := mem_halfProg hst
        obtain ⟨-, h4⟩ := hw
        omega
      · intro sec cur _
        apply solo_of
        · intro st hst
          obtain ⟨i', n, p', -, -, -, rfl⟩ := mem_halfProg hst
          refine ⟨i', p', _, rfl, ?_⟩
          rintro rfl rfl s
          exact hval
        · exact .inr ⟨_, halfProg_mem (k j) hsz hp, rfl, rfl⟩

/-- Every quantised network with a tensor in the arena can be compiled and run as `C106_compiled_network` describes, whatever the options and the
order in which the driver looks at the constants. -/
theorem C106_compiles (R : Rt) (dom : MulArgs → Prop) (hR : R.OK dom) (Q : QNetwork) (hQ : Q.OK R dom) (N : Network)
    (h : Relation.ReflTransGen (Rw patterns) Q.seen N) (skip : Nat → Bool) (cfg : WCfg) (calls : List Nat) (hin : Q.inputs ≠ []) :
    ∃ (consts : Nat → Weights.Const) (W : WFun) (a : ModuleAttrs) (impl : Nat → Impl),
      W = ((Q.rewritten N).expand R).withWeights skip cfg calls calls consts ∧ W.Visited ∧ W.Stored ∧ planMemory W.func = some a ∧
      ImplOK W.func (onData W.func impl (W.kernels ((Q.rewritten N).sem R) W.file)) impl ∧
      (∀ j, (W.func.op j).overlappable = false → ∃ p q, impl j = .threads none 0 [p, q]) ∧
      (∀ j, impl j ≠ .skip) ∧
      ∀ m c, ∃ tr, Run W.func (onData W.func impl (W.kernels ((Q.rewritten N).sem R) W.file)) impl a.offsets W.func.ops 0 m c tr := by
  have hI := inv_rewrites hQ h
  have hok := rewritten_ok hQ hI
  obtain ⟨W, hW⟩ : ∃ W, W = ((Q.rewritten N).expand R).withWeights skip cfg calls calls (denseConsts (((Q.rewritten N).expand R).compile skip).1.ops) := ⟨_, rfl⟩
  have hv : W.Visited := by rw [hW]; exact calls_visited _ _ _ _ _
  have hs : W.Stored := by rw [hW]; exact denseConsts_stored _ _ _ _ _
  have hE : ((Q.rewritten N).expand R).OK :=
    (expand_values hR _ hok (Q.inputs.map fun t => List.replicate t.size 0) (by simp [QNetwork.rewritten, hI.inputs, Function.comp_def])).1
  obtain ⟨a, ha⟩ := (C94_network_with_weights _ hE skip cfg calls calls _ W hW hv hs).1 0 (by
    have hl : 0 < W.func.argSizes.length := by
      rw [hW]
      show 0 < (List.map _ (Q.rewritten N).inputs).length
      have : (Q.rewritten N).inputs = Q.inputs := hI.inputs
      rw [List.length_map, this]
      exact List.length_pos_iff.2 hin
    refine ⟨?_, ?_⟩
    · show 0 < W.func.decls.length
      simp only [Func.decls, List.length_append, List.length_map]; omega
    · simp only [Func.decl, Func.decls]
      rw [List.getD_eq_getElem?_getD, List.getElem?_append_left (by simpa using hl), List.getElem?_map, List.getElem?_eq_getElem hl]
      rfl)
  refine ⟨_, W, a, halves W.func (W.kernels ((Q.rewritten N).sem R) W.file), hW, hv, hs, ha, halves_ok _ _ (W.kernels_fit _ _), ?_, ?_, ?_⟩
  · intro j hj
    exact ⟨_, _, by unfold halves; rw [if_neg (by simp [hj])]⟩
  · intro j hj
    unfold halves at hj
    split at hj <;> cases hj
  · intro m c
    exact C102_runs_exist _ _ _ _ _ _ _ _

/-- The PyTorch export of C99's example, with both transposes removed, compiled and run on two threads. -/
theorem C106_example (cfg : WCfg) (calls : List Nat) (x : List Byte) (hx : x.length = 64) :
    ∃ (N : Network) (W : WFun) (a : ModuleAttrs) (impl : Nat → Impl) (vals : List (List Byte)), exampleT.rewritten N = exampleT' ∧
      W.cfg = cfg ∧ planMemory W.func = some a ∧ exampleT.Values exRt [x] vals ∧
      ∀ m c, (∃ tr, Run W.func (onData W.func impl (W.kernels (exampleT'.sem exRt) W.file)) impl a.offsets W.func.ops 0 (loadInputs a.offsets [x] m) c tr) ∧
        ∀ tr, Run W.func (onData W.func impl (W.kernels (exampleT'.sem exRt) W.file)) impl a.offsets W.func.ops 0 (loadInputs a.offsets [x] m) c tr →
          tr.getLast? = some [vals.getD 5 []] := by
  obtain ⟨hQ, N, hN, hT, -⟩ := C99_example
  obtain ⟨consts, W, a, impl, hW, hv, hs, ha, hok, -, hsk, hrun⟩ :=
    C106_compiles exRt _ exRt_ok exampleT hQ N hN (fun _ => false) cfg calls (by simp [exampleT])
  obtain ⟨vals, h1, h2⟩ := C106_compiled_network exRt _ exRt_ok exampleT hQ N hN (fun _ => false) cfg calls calls consts W hW hv hs a ha impl hok
    (fun j _ h => absurd h (hsk j)) [x] (by simp [exampleT, Ty.size, hx])
  rw [hT] at h2 hrun
  exact ⟨N, W, a, impl, vals, hT, by rw [hW]; rfl, ha, h1, fun m c => ⟨hrun _ _, fun tr htr => h2 m c tr htr⟩⟩

end Verif.Net
