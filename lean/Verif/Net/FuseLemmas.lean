import Verif.Net.Fuse
/-! Typing of compiled functions, and renumbering of values (for C107). -/
namespace Verif.Net
open Verif.Tensor Verif.Move Verif.MemPlan

/-! ### Values of reshapes and of other operators -/

theorem bytesOf_elemAt_fit (t : Ty) (x : List Byte) : bytesOf t (elemAt t x) = fit t.size x := by
  rw [← bytesOf_elemAt t (fit t.size x) (length_fit _ _)]
  unfold bytesOf
  congr 1
  apply flat_congr
  intro idx hi
  have h1 := ravel_lt _ _ hi
  have h2 : (ravel t.shape idx + 1) * t.d ≤ t.shape.prod * t.d := Nat.mul_le_mul_right _ h1
  rw [Nat.succ_mul] at h2
  show fit t.d ((x.drop (ravel t.shape idx * t.d)).take t.d) = fit t.d (((fit t.size x).drop (ravel t.shape idx * t.d)).take t.d)
  generalize ravel t.shape idx * t.d = r at h2 ⊢
  change r + t.d ≤ t.size at h2
  apply List.ext_getElem?
  intro i
  unfold fit
  simp only [List.getElem?_take, List.getElem?_append, List.getElem?_drop, List.length_take, List.length_drop, List.getElem?_replicate,
    List.length_append, List.length_replicate]
  repeat' split
  all_goals first | rfl | omega

theorem reshape_run {sem : Sem} {t ty : Ty} {x : List Byte} (h1 : x.length = t.size) (h2 : t.size = ty.size) :
    fit ty.size (DKind.run sem (.tfl .reshape [t]) ty [x]) = x := by
  show fit ty.size (bytesOf ty (elemAt ty (bytesOf t (elemAt t x)))) = x
  rw [bytesOf_elemAt _ _ h1, bytesOf_elemAt _ _ (h1.trans h2), fit_eq (h1.trans h2)]

theorem map_bytes : ∀ (tys : List Ty) (xs : List (List Byte)), tys.map Ty.size = xs.map List.length →
    (((tys.zip xs).map fun x => (x.1, elemAt x.1 x.2)).map fun x => bytesOf x.1 x.2) = xs
  | [], xs, h => by cases xs <;> simp_all
  | t :: tys, xs, h => by
    cases xs with
    | nil => simp at h
    | cons x xs =>
      simp only [List.map_cons, List.cons.injEq] at h
      simp only [List.zip_cons_cons, List.map_cons, bytesOf_elemAt t x h.1.symm, map_bytes tys xs h.2]

theorem other_run {sem : Sem} {ip : Bool} {k : Nat} {tys : List Ty} {ty : Ty} {xs : List (List Byte)} (h : tys.map Ty.size = xs.map List.length) :
    fit ty.size (DKind.run sem (.tfl (.other ip k) tys) ty xs) = fit ty.size (sem k xs) := by
  show fit ty.size (bytesOf ty (elemAt ty (sem k (((tys.zip xs).map fun x => (x.1, elemAt x.1 x.2)).map fun x => bytesOf x.1 x.2)))) = _
  rw [map_bytes _ _ h, bytesOf_elemAt_fit, fit_eq (length_fit _ _)]

/-! ### Typing -/

/-- Whether an operator is a constant, and the size of its result. -/
def DOp.info (d : DOp) : Bool × Nat := (d.kind.isConst, d.ty.size)

/-- Size of value `a`. -/
def szOf (env : List (Bool × Nat)) (a : Nat) : Nat := (env.getD a (false, 0)).2

/-- Whether value `a` is a constant. -/
def cstOf (env : List (Bool × Nat)) (a : Nat) : Bool := (env.getD a (false, 0)).1

/-- Sizes of operands and result; operands of operators that work in place are not larger than the result. -/
def OpTyped (env : List (Bool × Nat)) (d : DOp) : Prop :=
  match d.kind with
  | .xcPad _ => ∀ a ∈ d.args, szOf env a ≤ d.ty.size
  | .xcPad34 _ => ∀ a ∈ d.args, szOf env a ≤ d.ty.size
  | .tfl .reshape tys => ∃ a t, d.args = [a] ∧ tys = [t] ∧ t.size = szOf env a ∧ t.size = d.ty.size
  | .tfl (.other ip _) tys => tys.map Ty.size = d.args.map (szOf env) ∧ (ip = true → ∀ a ∈ d.args, cstOf env a = true ∨ szOf env a ≤ d.ty.size)
  | _ => True

structure OpOK (env : List (Bool × Nat)) (d : DOp) : Prop where
  bound : ∀ a ∈ d.args, a < env.length
  const : d.kind.isConst = true → d.args = []
  typed : OpTyped env d

def OpsOK : List DOp → List (Bool × Nat) → Prop
  | [], _ => True
  | d :: ds, env => OpOK env d ∧ OpsOK ds (env ++ [d.info])

theorem OpsOK_append : ∀ (l1 l2 : List DOp) (env : List (Bool × Nat)), OpsOK (l1 ++ l2) env ↔ OpsOK l1 env ∧ OpsOK l2 (env ++ l1.map DOp.info)
  | [], l2, env => by simp [OpsOK]
  | d :: l1, l2, env => by simp [OpsOK, OpsOK_append l1 l2, and_assoc]

def env0 (inputs : List Ty) : List (Bool × Nat) := inputs.map fun t => (false, t.size)

/-- A well-formed compiled function. -/
structure DFun.OK (F : DFun) : Prop where
  ops : OpsOK F.ops (env0 F.inputs)
  outs : ∀ v ∈ F.outs, v < F.inputs.length + F.ops.length

theorem szOf_old {env : List (Bool × Nat)} {a : Nat} (l : List (Bool × Nat)) (h : a < env.length) : szOf (env ++ l) a = szOf env a := by
  unfold szOf; rw [List.getD_eq_getElem?_getD, List.getD_eq_getElem?_getD, List.getElem?_append_left h]

theorem cstOf_old {env : List (Bool × Nat)} {a : Nat} (l : List (Bool × Nat)) (h : a < env.length) : cstOf (env ++ l) a = cstOf env a := by
  unfold cstOf; rw [List.getD_eq_getElem?_getD, List.getD_eq_getElem?_getD, List.getElem?_append_left h]

theorem szOf_last (env : List (Bool × Nat)) (x : Bool × Nat) : szOf (env ++ [x]) env.length = x.2 := by
  unfold szOf; simp [List.getD_eq_getElem?_getD]

theorem cstOf_last (env : List (Bool × Nat)) (x : Bool × Nat) : cstOf (env ++ [x]) env.length = x.1 := by
  unfold cstOf; simp [List.getD_eq_getElem?_getD]

theorem map_info_length (l : List DOp) : (l.map DOp.info).length = l.length := List.length_map _

/-- The operator at a position. -/
theorem OpsOK.get {ds : List DOp} {env : List (Bool × Nat)} (h : OpsOK ds env) {i : Nat} {d : DOp} (hd : ds[i]? = some d) :
    OpOK (env ++ (ds.take i).map DOp.info) d := by
  have hlt : i < ds.length := (List.getElem?_eq_some_iff.1 hd).1
  have he : ds = ds.take i ++ d :: ds.drop (i + 1) := by
    conv_lhs => rw [← List.take_append_drop i ds]
    rw [List.drop_eq_getElem_cons hlt]
    rw [List.getElem?_eq_getElem hlt] at hd
    cases hd
    rfl
  rw [he, OpsOK_append] at h
  exact h.2.1

theorem OpTyped.mono {env : List (Bool × Nat)} {d : DOp} (l : List (Bool × Nat)) (hb : ∀ a ∈ d.args, a < env.length) (h : OpTyped env d) :
    OpTyped (env ++ l) d := by
  obtain ⟨k, args, ty⟩ := d
  unfold OpTyped at h ⊢
  simp only at hb
  split at h
  · intro a ha; rw [szOf_old l (hb a ha)]; exact h a ha
  · intro a ha; rw [szOf_old l (hb a ha)]; exact h a ha
  · obtain ⟨a, t, h1, h2, h3, h4⟩ := h
    simp only at h1
    refine ⟨a, t, h1, h2, ?_, h4⟩
    rw [szOf_old l (hb a (by rw [h1]; simp))]
    exact h3
  · refine ⟨?_, ?_⟩
    · rw [h.1]
      apply List.map_congr_left
      intro a ha
      exact (szOf_old l (hb a ha)).symm
    · intro hip a ha
      rw [szOf_old l (hb a ha), cstOf_old l (hb a ha)]
      exact h.2 hip a ha
  · trivial

/-- Well-formed code in the sense of C83 follows. -/
theorem OpsOK.good {ds : List DOp} {inputs : List Ty} (h : OpsOK ds (env0 inputs)) : Good ⟨inputs.length, ds⟩ := by
  intro j d hj
  have ho := h.get hj
  have hlt : j < ds.length := (List.getElem?_eq_some_iff.1 hj).1
  have hlen : (env0 inputs ++ (ds.take j).map DOp.info).length = inputs.length + j := by
    simp [env0]; omega
  refine ⟨fun a ha => by rw [← hlen]; exact ho.bound a ha, ho.const, ?_⟩
  intro hip i p hi hp hpi
  have hi' : i < j := by have := ho.bound (inputs.length + i) hi; rw [hlen] at this; omega
  have hinfo : (env0 inputs ++ (ds.take j).map DOp.info).getD (inputs.length + i) (false, 0) = p.info := by
    rw [List.getD_eq_getElem?_getD, List.getElem?_append_right (by simp [env0])]
    simp only [env0, List.length_map, Nat.add_sub_cancel_left, List.getElem?_map, List.getElem?_take, if_pos hi', (hp : ds[i]? = some p)]
    rfl
  have hsz : szOf (env0 inputs ++ (ds.take j).map DOp.info) (inputs.length + i) = p.ty.size := by unfold szOf; rw [hinfo]; rfl
  have hct : cstOf (env0 inputs ++ (ds.take j).map DOp.info) (inputs.length + i) = p.kind.isConst := by unfold cstOf; rw [hinfo]; rfl
  have ht := ho.typed
  rw [← hsz]
  obtain ⟨k, args, ty⟩ := d
  simp only at hip hi ⊢
  unfold OpTyped at ht
  cases k with
  | xcPad q => exact ht _ hi
  | xcPad34 v => exact ht _ hi
  | tfl k tys =>
    cases k with
    | other ip k =>
      rcases ht.2 hip _ hi with h | h
      · rw [hct] at h
        cases hk : p.kind <;> simp [hk, DKind.isConst, DKind.inPlace] at h hpi
      · exact h
    | _ => cases hip
  | _ => cases hip

/-! ### Sizes of values -/

theorem runOps_sizes (sem : Sem) : ∀ (ds : List DOp) (env : List (Bool × Nat)) (vs : List (List Byte)), vs.map List.length = env.map (·.2) →
    (runOps sem ds vs).map List.length = (env ++ ds.map DOp.info).map (·.2)
  | [], env, vs, h => by simpa [runOps] using h
  | d :: ds, env, vs, h => by
    rw [runOps, runOps_sizes sem ds (env ++ [d.info]) _ (by simp [h, length_fit, DOp.info])]
    simp

theorem size_at {env : List (Bool × Nat)} {vs : List (List Byte)} (h : vs.map List.length = env.map (·.2)) (a : Nat) :
    (vs.getD a []).length = szOf env a := by
  have := congrArg (fun l => l[a]?.getD 0) h
  simp only [List.getElem?_map] at this
  unfold szOf
  rw [List.getD_eq_getElem?_getD, List.getD_eq_getElem?_getD]
  cases h1 : vs[a]? <;> cases h2 : env[a]? <;> simp_all

theorem len_at {env : List (Bool × Nat)} {vs : List (List Byte)} (h : vs.map List.length = env.map (·.2)) : vs.length = env.length := by
  simpa using congrArg List.length h

/-! ### Renumbering -/

/-- Values that are used have the same size, and stay constants. -/
def Sim (f : Nat → Nat) (U : Nat → Prop) (env env' : List (Bool × Nat)) : Prop :=
  ∀ u < env.length, U u → f u < env'.length ∧ szOf env' (f u) = szOf env u ∧ (cstOf env u = true → cstOf env' (f u) = true)

theorem OpOK.map {f : Nat → Nat} {U : Nat → Prop} {env env' : List (Bool × Nat)} (hs : Sim f U env env') {d : DOp} (hU : ∀ a ∈ d.args, U a)
    (h : OpOK env d) : OpOK env' (d.mapArgs f) := by
  refine ⟨?_, ?_, ?_⟩
  · intro b hb
    obtain ⟨a, ha, rfl⟩ := List.mem_map.1 hb
    exact (hs a (h.bound a ha) (hU a ha)).1
  · intro hc
    show d.args.map f = []
    rw [h.const hc]; rfl
  · have ht := h.typed
    have hb := h.bound
    clear h
    obtain ⟨k, args, ty⟩ := d
    have hsz : ∀ a ∈ args, szOf env' (f a) = szOf env a := fun a ha => (hs a (hb a ha) (hU a ha)).2.1
    have hct : ∀ a ∈ args, cstOf env a = true → cstOf env' (f a) = true := fun a ha => (hs a (hb a ha) (hU a ha)).2.2
    unfold OpTyped DOp.mapArgs at *
    simp only at *
    split at ht
    · intro b hb'
      obtain ⟨a, ha, rfl⟩ := List.mem_map.1 hb'
      rw [hsz a ha]; exact ht a ha
    · intro b hb'
      obtain ⟨a, ha, rfl⟩ := List.mem_map.1 hb'
      rw [hsz a ha]; exact ht a ha
    · obtain ⟨a, t, h1, h2, h3, h4⟩ := ht
      refine ⟨f a, t, by rw [h1]; rfl, h2, ?_, h4⟩
      rw [hsz a (by rw [h1]; simp)]; exact h3
    · refine ⟨?_, ?_⟩
      · rw [ht.1, List.map_map]
        apply List.map_congr_left
        intro a ha
        exact (hsz a ha).symm
      · intro hip b hb'
        obtain ⟨a, ha, rfl⟩ := List.mem_map.1 hb'
        rcases ht.2 hip a ha with h | h
        · exact .inl (hct a ha h)
        · right; rw [hsz a ha]; exact h
    · trivial

theorem Sim.push {f : Nat → Nat} {U : Nat → Prop} {env env' : List (Bool × Nat)} (hs : Sim f U env env') (hf : f env.length = env'.length)
    (x : Bool × Nat) : Sim f U (env ++ [x]) (env' ++ [x]) := by
  intro u hu hU
  rw [List.length_append, List.length_singleton] at hu ⊢
  by_cases h : u < env.length
  · obtain ⟨h1, h2, h3⟩ := hs u h hU
    rw [szOf_old _ h1, szOf_old _ h, cstOf_old _ h1, cstOf_old _ h]
    exact ⟨by omega, h2, h3⟩
  · have : u = env.length := by omega
    rw [this, hf, szOf_last, szOf_last, cstOf_last, cstOf_last]
    exact ⟨by omega, rfl, id⟩

theorem mapArgs_info (f : Nat → Nat) (d : DOp) : (d.mapArgs f).info = d.info := rfl

theorem OpsOK.map {f : Nat → Nat} {U : Nat → Prop} : ∀ {ds : List DOp} {env env' : List (Bool × Nat)}, Sim f U env env' →
    (∀ i, f (env.length + i) = env'.length + i) → (∀ d ∈ ds, ∀ a ∈ d.args, U a) → OpsOK ds env → OpsOK (ds.map (DOp.mapArgs f)) env'
  | [], _, _, _, _, _, _ => trivial
  | d :: ds, env, env', hs, hf, hU, h => by
    refine ⟨h.1.map hs (hU d List.mem_cons_self), ?_⟩
    rw [mapArgs_info]
    refine OpsOK.map (hs.push (hf 0) _) ?_ (fun e he => hU e (List.mem_cons_of_mem _ he)) h.2
    intro i
    simp only [List.length_append, List.length_cons, List.length_nil, Nat.add_assoc]
    exact hf _

/-- Values that are used are the same. -/
theorem runOps_map (sem : Sem) {f : Nat → Nat} {U : Nat → Prop} : ∀ {ds : List DOp} {vs vs' : List (List Byte)} {env : List (Bool × Nat)},
    env.length = vs.length → OpsOK ds env → (∀ u < vs.length, U u → f u < vs'.length ∧ vs'.getD (f u) [] = vs.getD u []) →
    (∀ i, f (vs.length + i) = vs'.length + i) → (∀ d ∈ ds, ∀ a ∈ d.args, U a) →
    ∀ u < vs.length + ds.length, U u → f u < vs'.length + ds.length ∧ (runOps sem (ds.map (DOp.mapArgs f)) vs').getD (f u) [] = (runOps sem ds vs).getD u []
  | [], vs, vs', env, _, _, hv, _, _, u, hu, hU => hv u hu hU
  | d :: ds, vs, vs', env, hl, h, hv, hf, hUs, u, hu, hU => by
    rw [List.map_cons, runOps, runOps]
    have hargs : ((d.mapArgs f).args.map fun a => vs'.getD a []) = d.args.map fun a => vs.getD a [] := by
      show (d.args.map f).map _ = _
      rw [List.map_map]
      apply List.map_congr_left
      intro a ha
      exact (hv a (by rw [← hl]; exact h.1.bound a ha) (hUs d List.mem_cons_self a ha)).2
    rw [hargs]
    have := runOps_map sem (f := f) (U := U) (ds := ds) (vs := vs ++ [fit d.ty.size (d.kind.run sem d.ty (d.args.map fun a => vs.getD a []))])
      (vs' := vs' ++ [fit d.ty.size (d.kind.run sem d.ty (d.args.map fun a => vs.getD a []))]) (env := env ++ [d.info]) (by simp [hl]) h.2 (by
        intro w hw hU'
        rw [List.length_append, List.length_singleton] at hw ⊢
        by_cases hlt : w < vs.length
        · obtain ⟨h1, h2⟩ := hv w hlt hU'
          refine ⟨by omega, ?_⟩
          rw [List.getD_eq_getElem?_getD, List.getElem?_append_left h1, List.getD_eq_getElem?_getD, List.getElem?_append_left hlt,
            ← List.getD_eq_getElem?_getD, ← List.getD_eq_getElem?_getD]
          exact h2
        · have : w = vs.length := by omega
          have hf0 := hf 0
          rw [Nat.add_zero, Nat.add_zero] at hf0
          rw [this, hf0]
          refine ⟨by omega, ?_⟩
          simp [List.getD_eq_getElem?_getD]) (by
        intro i
        simp only [List.length_append, List.length_cons, List.length_nil, Nat.add_assoc]
        exact hf _) (fun e he => hUs e (List.mem_cons_of_mem _ he)) u (by simp only [List.length_append, List.length_cons, List.length_nil] at hu ⊢; omega) hU
    simp only [List.length_append, List.length_cons, List.length_nil] at this ⊢
    refine ⟨by omega, this.2⟩

end Verif.Net
