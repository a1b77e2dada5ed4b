import Verif.MemPlan.Machine
/-!
The runtime that is generated with a compiled model (examples/audio_network/src/model_audioi16.tflite.cpp 13432-13850): a table of
tensors, a table of nodes, and a loop that invokes the nodes in order in one arena.  The operators themselves
(`registrations[..].invoke`) are not in /repo; they are the parameter `Kern`.
-/
namespace Verif.Shipped
open Verif.MemPlan (Mem Byte)

/-- `tflTensors`, `tflNodes`, `inTensorIndices` and `outTensorIndices` (model_audioi16.tflite.cpp 13157-13451) of a model with one
subgraph.  `offset` is `none` for a tensor whose data is a constant table (`kTfLiteMmapRo`). -/
structure Tables where
  offset : List (Option Nat)
  bytes : List Nat
  nodes : List (List Int × List Nat)
  inputs : List Nat
  outputs : List Nat

/-- Where tensor `t` is in the arena. -/
def Tables.off (T : Tables) (t : Nat) : Option Nat := T.offset.getD t none

/-- `tflTensors[t].bytes`. -/
def Tables.size (T : Tables) (t : Nat) : Nat := T.bytes.getD t 0

/-- The bytes an operator finds through `tflTensors[t].data`: in the arena, or in the constant tables `c`. -/
def Tables.get (T : Tables) (c : Nat → List Byte) (m : Mem) (t : Nat) : List Byte :=
  match T.off t with
  | some o => m.read o (T.size t)
  | none => c t

/-- Writing through `tflTensors[t].data`. -/
def Tables.put (T : Tables) (m : Mem) (t : Nat) (b : List Byte) : Mem :=
  match T.off t with
  | some o => m.write o b
  | none => m

/-- Writing several tensors in turn. -/
def Tables.putAll (T : Tables) : List Nat → List (List Byte) → Mem → Mem
  | t :: ts, b :: bs, m => T.putAll ts bs (T.put m t b)
  | _, _, m => m

/-- The operators: node, inputs (`none` for an absent one: mc_AllocateTempInputTensor returns nullptr for a negative index,
model_audioi16.tflite.cpp 13504-13509) to outputs. -/
abbrev Kern := Nat → List (Option (List Byte)) → List (List Byte)

/-- model_audioi16.tflite.cpp 13504-13509. -/
def fetch (g : Nat → List Byte) (i : Int) : Option (List Byte) := if i < 0 then none else some (g i.toNat)

/-- `mg_InvokeSubgraph` (model_audioi16.tflite.cpp 13549-13629): the nodes in order.  `noise i` is whatever else the operator of node `i`
does to the arena (persistent and scratch buffers). -/
def Tables.invokeFrom (T : Tables) (c : Nat → List Byte) (k : Kern) (noise : Nat → Mem → Mem) : Nat → List (List Int × List Nat) → Mem → Mem
  | _, [], m => m
  | i, (is, os) :: rest, m =>
      T.invokeFrom c k noise (i + 1) rest (noise i (T.putAll os (k i (is.map (fetch (T.get c m)))) m))

/-- `model_invoke` (model_audioi16.tflite.cpp 13785-13796). -/
def Tables.invoke (T : Tables) (c : Nat → List Byte) (k : Kern) (noise : Nat → Mem → Mem) (m : Mem) : Mem :=
  T.invokeFrom c k noise 0 T.nodes m

/-! ### What the model means: every tensor has its own storage -/

/-- Assigning several tensors in turn. -/
def assign : List Nat → List (List Byte) → (Nat → List Byte) → Nat → List Byte
  | t :: ts, b :: bs, e => assign ts bs fun v => if v = t then b else e v
  | _, _, e => e

/-- The nodes in order, each tensor in storage of its own. -/
def evalFrom (k : Kern) : Nat → List (List Int × List Nat) → (Nat → List Byte) → Nat → List Byte
  | _, [], e => e
  | i, (is, os) :: rest, e => evalFrom k (i + 1) rest (assign os (k i (is.map (fetch e))) e)

/-- The value of every tensor for given constants and inputs. -/
def Tables.eval (T : Tables) (k : Kern) (c : Nat → List Byte) (inputs : List (List Byte)) : Nat → List Byte :=
  evalFrom k 0 T.nodes (assign T.inputs inputs c)

/-- Operators write as many bytes as the tensors have. -/
def Tables.Fit (T : Tables) (k : Kern) : Prop :=
  ∀ i n, T.nodes[i]? = some n → ∀ ins, (k i ins).map List.length = n.2.map T.size

/-- Everything but the tensors stays above `peak`. -/
def Quiet (peak : Int) (g : Mem → Mem) : Prop := ∀ m a, a < peak → g m a = m a

/-! ### A checker of tables -/

/-- The byte ranges of two tensors do not meet. -/
def Tables.apart (T : Tables) (a b : Nat) : Bool :=
  match T.off a, T.off b with
  | some x, some y => decide (x + T.size a ≤ y) || decide (y + T.size b ≤ x)
  | _, _ => true

/-- Pairwise apart. -/
def Tables.apartAll (T : Tables) : List Nat → Bool
  | [] => true
  | t :: ts => ts.all (fun u => T.apart t u && T.apart u t && t != u) && T.apartAll ts

/-- In the arena below `peak`. -/
def Tables.below (T : Tables) (peak : Nat) (t : Nat) : Bool :=
  match T.off t with
  | some o => decide (o + T.size t ≤ peak)
  | none => false

/-- Is `v` still to be read? -/
def Tables.later (T : Tables) (rest : List (List Int × List Nat)) (v : Nat) : Bool :=
  T.outputs.contains v || rest.any fun n => n.1.contains (v : Int)

/-- Scan of the nodes with the list of tensors that hold a value still needed. -/
def Tables.scan (T : Tables) (peak : Nat) : List Nat → List (List Int × List Nat) → Bool
  | live, [] => T.outputs.all live.contains
  | live, (is, os) :: rest =>
      let keep := live.filter (T.later rest)
      is.all (fun i => decide (i < 0) || (T.off i.toNat).isNone || live.contains i.toNat) &&
      os.all (T.below peak) && T.apartAll os &&
      keep.all (fun v => os.all fun o => T.apart v o && v != o) &&
      T.scan peak (os ++ keep) rest

/-- The whole check. -/
def Tables.check (T : Tables) (peak : Nat) : Bool :=
  T.inputs.all (T.below peak) && T.apartAll T.inputs && T.scan peak T.inputs T.nodes

/-! ### Proof that the check suffices -/

theorem apart_disjoint {T : Tables} {a b x y : Nat} (h : T.apart a b = true) (ha : T.off a = some x) (hb : T.off b = some y) :
    MemPlan.RangesDisjoint x (T.size a) y (T.size b) := by
  unfold Tables.apart at h
  rw [ha, hb] at h
  simp only [Bool.or_eq_true, decide_eq_true_eq] at h
  unfold MemPlan.RangesDisjoint
  omega

theorem get_put_other {T : Tables} {c : Nat → List Byte} {m : Mem} {t v : Nat} {b : List Byte} (hb : b.length = T.size t)
    (h : T.apart v t = true) : T.get c (T.put m t b) v = T.get c m v := by
  unfold Tables.get Tables.put
  cases ev : T.off v with
  | none => rfl
  | some x =>
    cases et : T.off t with
    | none => rfl
    | some y =>
      simp only
      apply MemPlan.Mem.read_write_disjoint
      rw [hb]
      exact apart_disjoint h ev et

theorem get_putAll_other {T : Tables} {c : Nat → List Byte} {v : Nat} (ts : List Nat) (bs : List (List Byte)) (m : Mem)
    (hb : bs.map List.length = ts.map T.size) (h : ∀ t ∈ ts, T.apart v t = true) : T.get c (T.putAll ts bs m) v = T.get c m v := by
  induction ts generalizing bs m with
  | nil => rfl
  | cons t ts ih =>
    cases bs with
    | nil => rfl
    | cons b bs =>
      simp only [List.map_cons, List.cons.injEq] at hb
      simp only [Tables.putAll]
      rw [ih bs _ hb.2 fun u hu => h u (List.mem_cons_of_mem _ hu)]
      exact get_put_other hb.1 (h t List.mem_cons_self)

theorem get_putAll_same {T : Tables} {c : Nat → List Byte} {peak : Nat} (ts : List Nat) (bs : List (List Byte)) (m : Mem)
    (hb : bs.map List.length = ts.map T.size) (ha : T.apartAll ts = true) (hin : ∀ t ∈ ts, T.below peak t = true) (e : Nat → List Byte) :
    ∀ v ∈ ts, T.get c (T.putAll ts bs m) v = assign ts bs e v := by
  induction ts generalizing bs m e with
  | nil => simp
  | cons t ts ih =>
    cases bs with
    | nil => simp at hb
    | cons b bs =>
      simp only [List.map_cons, List.cons.injEq] at hb
      simp only [Tables.apartAll, Bool.and_eq_true, List.all_eq_true, bne_iff_ne] at ha
      simp only [Tables.putAll, assign]
      intro v hv
      by_cases hm : v ∈ ts
      · exact ih bs _ hb.2 ha.2 (fun u hu => hin u (List.mem_cons_of_mem _ hu)) _ v hm
      · have : v = t := by simpa [hm] using hv
        subst this
        rw [get_putAll_other ts bs _ hb.2 fun u hu => (ha.1 u hu).1.1]
        have eq : ∀ (ts : List Nat) (bs : List (List Byte)) (e : Nat → List Byte), v ∉ ts → assign ts bs e v = e v := by
          intro ts
          induction ts with
          | nil => intros; rfl
          | cons u us ihu =>
            intro bs e hn
            cases bs with
            | nil => rfl
            | cons b bs =>
              simp only [assign]
              rw [ihu bs _ fun h => hn (List.mem_cons_of_mem _ h)]
              have : v ≠ u := fun h => hn (h ▸ List.mem_cons_self)
              simp [this]
        rw [eq ts bs _ hm]
        have hbl := hin v List.mem_cons_self
        unfold Tables.below at hbl
        unfold Tables.get Tables.put
        cases eo : T.off v with
        | none => rw [eo] at hbl; simp at hbl
        | some o =>
          simp only [if_true]
          rw [← hb.1]
          exact MemPlan.Mem.read_write_same _ _ _

theorem assign_other {v : Nat} (ts : List Nat) (bs : List (List Byte)) (e : Nat → List Byte) (h : v ∉ ts) : assign ts bs e v = e v := by
  induction ts generalizing bs e with
  | nil => rfl
  | cons u us ih =>
    cases bs with
    | nil => rfl
    | cons b bs =>
      simp only [assign]
      rw [ih bs _ fun h' => h (List.mem_cons_of_mem _ h')]
      have : v ≠ u := fun h' => h (h' ▸ List.mem_cons_self)
      simp [this]

theorem get_quiet {T : Tables} {c : Nat → List Byte} {peak : Nat} {g : Mem → Mem} (hg : Quiet peak g) (m : Mem) {v : Nat}
    (h : T.below peak v = true) : T.get c (g m) v = T.get c m v := by
  unfold Tables.below at h
  unfold Tables.get
  cases eo : T.off v with
  | none => rfl
  | some o =>
    rw [eo] at h
    simp only [decide_eq_true_eq] at h
    simp only
    apply MemPlan.Mem.read_congr
    intro a _ h2
    exact hg m a (by omega)

theorem below_some {T : Tables} {peak t : Nat} (h : T.below peak t = true) : (T.off t).isSome = true := by
  unfold Tables.below at h
  cases e : T.off t with
  | none => rw [e] at h; simp at h
  | some o => rfl

/-- The invariant of the scan. -/
theorem scan_sound (T : Tables) (c : Nat → List Byte) (k : Kern) (noise : Nat → Mem → Mem) (peak : Nat) (hn : ∀ i, Quiet peak (noise i)) :
    ∀ (nodes : List (List Int × List Nat)) (i : Nat) (live : List Nat) (m : Mem) (e : Nat → List Byte),
      (∀ j n, nodes[j]? = some n → ∀ ins, (k (i + j) ins).map List.length = n.2.map T.size) →
      T.scan peak live nodes = true → (∀ v ∈ live, T.below peak v = true) → (∀ v ∈ live, T.get c m v = e v) →
      (∀ v, T.off v = none → e v = c v) →
      ∀ v ∈ T.outputs, T.get c (T.invokeFrom c k noise i nodes m) v = evalFrom k i nodes e v := by
  intro nodes
  induction nodes with
  | nil =>
    intro i live m e _ hs _ hl _ v hv
    simp only [Tables.scan, List.all_eq_true, List.contains_iff_mem] at hs
    exact hl v (hs v hv)
  | cons n rest ih =>
    obtain ⟨is, os⟩ := n
    intro i live m e hf hs hb hl hc
    simp only [Tables.scan, Bool.and_eq_true, List.all_eq_true] at hs
    obtain ⟨⟨⟨⟨h1, h2⟩, h3⟩, h4⟩, h5⟩ := hs
    have hins : is.map (fetch (T.get c m)) = is.map (fetch e) := by
      apply List.map_congr_left
      intro x hx
      unfold fetch
      split
      · rfl
      · rename_i hx0
        have := h1 x hx
        simp only [Bool.or_eq_true, decide_eq_true_eq, List.contains_iff_mem, Option.isNone_iff_eq_none] at this
        rcases this with (h | h) | h
        · exact absurd h hx0
        · rw [hc _ h]; unfold Tables.get; rw [h]
        · rw [hl _ h]
    have hk := hf 0 (is, os) rfl (is.map (fetch e))
    simp only [Nat.add_zero] at hk
    simp only [Tables.invokeFrom, evalFrom]
    rw [hins]
    apply ih (i + 1) (os ++ live.filter (T.later rest)) _ _ _ h5
    · intro v hv
      rcases List.mem_append.1 hv with h | h
      · exact h2 v h
      · exact hb v (List.mem_filter.1 h).1
    · intro v hv
      have hbv : T.below peak v = true := by
        rcases List.mem_append.1 hv with h | h
        · exact h2 v h
        · exact hb v (List.mem_filter.1 h).1
      rw [get_quiet (hn i) _ hbv]
      by_cases hm : v ∈ os
      · exact get_putAll_same os _ m hk h3 (fun t ht => h2 t ht) e v hm
      · have hv' : v ∈ live.filter (T.later rest) := by
          rcases List.mem_append.1 hv with h | h
          · exact absurd h hm
          · exact h
        have h4' := h4 v hv'
        rw [get_putAll_other os _ m hk (fun t ht => (h4' t ht).1), assign_other os _ e hm]
        exact hl v (List.mem_filter.1 hv').1
    · intro v hv
      have hm : v ∉ os := by
        intro h
        have := below_some (h2 v h)
        rw [hv] at this
        simp at this
      rw [assign_other os _ e hm]
      exact hc v hv
    · intro j n hj ins
      have := hf (j + 1) n (by simpa using hj) ins
      rw [show i + 1 + j = i + (j + 1) by omega]
      exact this

/-- Tables that pass the check run correctly in any arena, with any constants, operators, inputs and side activity above the tensors. -/
theorem check_sound {T : Tables} {peak : Nat} (h : T.check peak = true) (c : Nat → List Byte) (k : Kern) (hk : T.Fit k)
    (noise : Nat → Mem → Mem) (hn : ∀ i, Quiet peak (noise i)) (inputs : List (List Byte)) (hi : inputs.map List.length = T.inputs.map T.size)
    (m : Mem) : ∀ v ∈ T.outputs, T.get c (T.invoke c k noise (T.putAll T.inputs inputs m)) v = T.eval k c inputs v := by
  simp only [Tables.check, Bool.and_eq_true, List.all_eq_true] at h
  obtain ⟨⟨h1, h2⟩, h3⟩ := h
  apply scan_sound T c k noise peak hn T.nodes 0 T.inputs _ _ _ h3 h1
  · exact get_putAll_same T.inputs inputs m hi h2 h1 c
  · intro v hv
    apply assign_other
    intro hm
    have := below_some (h1 v hm)
    rw [hv] at this
    simp at this
  · intro j n hj ins
    rw [Nat.zero_add]
    exact hk j n hj ins

theorem length_read (m : Mem) (o : Int) (n : Nat) : (m.read o n).length = n := by
  induction n generalizing o with
  | zero => rfl
  | succ n ih => simp [MemPlan.Mem.read, ih]

end Verif.Shipped
