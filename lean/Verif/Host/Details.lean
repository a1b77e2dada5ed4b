import Verif.Host.Interp
import Mathlib.Tactic.IntervalCases
import Mathlib.Data.Rat.Defs
import Mathlib.Data.List.Nodup
/-!
C119: `get_input_details` and `get_output_details` of the host interpreter (python/xmos_ai_tools/xinterpreters/host_interpreter.py 381-520), and their use as in
TensorFlow Lite: `set_tensor(details["index"], value)` and `get_tensor(details["index"])`.
-/
namespace Verif.Host.Interp

/-- What the details take from the model file: besides C68's `TensorInfo`, the name's bytes, scales and zero points. -/
structure TensorRec where
  info : TensorInfo
  name : List Nat
  scales : List ℚ
  zeros : List Int

/-- The dictionary. -/
structure Details where
  name : List Char
  index : Nat
  shape : List Nat
  dtype : ElemType
  quantization : ℚ × Int
deriving DecidableEq

def hex (n : Nat) : Char := "0123456789abcdef".toList.getD n '0'

/-- One byte in the literal that Python's `str` makes of a bytes object. -/
def reprByte (quote : Char) (b : Nat) : List Char :=
  if b = 9 then ['\\', 't'] else if b = 10 then ['\\', 'n'] else if b = 13 then ['\\', 'r']
  else if Char.ofNat b = quote ∨ b = 92 then ['\\', Char.ofNat b]
  else if b < 32 ∨ 127 ≤ b then ['\\', 'x', hex (b / 16), hex (b % 16)] else [Char.ofNat b]

/-- Python's `str(b)`: single quotes, unless there are single quotes and no double quotes in it. -/
def strBytes (bs : List Nat) : List Char :=
  let quote := if 39 ∈ bs ∧ 34 ∉ bs then '"' else '\''
  'b' :: quote :: bs.flatMap (reprByte quote) ++ [quote]

/-- `str.strip("'")`. -/
def strip (l : List Char) : List Char := ((l.dropWhile (· == '\'')).reverse.dropWhile (· == '\'')).reverse

/-- One entry (lines 396-448; 470-520 for outputs): other types than four raise `TypeError`; `Scale(0)` and `ZeroPoint(0)` of an empty list are 0. -/
def detailsOf (t : TensorRec) : Option Details :=
  match t.info.type with
  | .other _ => none
  | ty => some ⟨strip ((strBytes t.name).drop 1), t.info.index, t.info.shape, ty, (t.scales.getD 0 0, t.zeros.getD 0 0)⟩

/-- `get_input_details`, `get_output_details`: the loop; `none` is an exception. -/
def details : List TensorRec → Option (List Details)
  | [] => some []
  | t :: ts =>
    match detailsOf t with
    | none => none
    | some d => (details ts).map (d :: ·)

/-! ### Specification -/

/-- A name of printable ASCII characters without quotes and backslashes. -/
def Plain (name : List Nat) : Prop := ∀ b ∈ name, 32 ≤ b ∧ b < 127 ∧ b ≠ 39 ∧ b ≠ 92

/-! ### Proofs -/

theorem repr_plain : ∀ b : Nat, 32 ≤ b → b < 127 → b ≠ 39 → b ≠ 92 → reprByte '\'' b = [Char.ofNat b] ∧ Char.ofNat b ≠ '\'' := by
  intro b h1 h2 h3 h4
  interval_cases b <;> first | (exfalso; omega) | decide

theorem dropWhile_none {α : Type} {p : α → Bool} {l : List α} (h : ∀ x ∈ l, p x = false) : l.dropWhile p = l := by
  cases l with
  | nil => rfl
  | cons x xs => simp [List.dropWhile, h x (by simp)]

/-- **C119.** The name is the tensor's name, if that is plain. -/
theorem C119_name {name : List Nat} (h : Plain name) : strip ((strBytes name).drop 1) = name.map Char.ofNat := by
  have hq : ¬ (39 ∈ name ∧ 34 ∉ name) := fun hc => (h 39 hc.1).2.2.1 rfl
  have hr : name.flatMap (reprByte '\'') = name.map Char.ofNat := by
    clear hq
    induction name with
    | nil => rfl
    | cons b bs ih =>
      obtain ⟨h1, h2, h3, h4⟩ := h b (by simp)
      rw [List.flatMap_cons, (repr_plain b h1 h2 h3 h4).1, ih fun x hx => h x (List.mem_cons_of_mem _ hx)]
      rfl
  have hm : ∀ c ∈ name.map Char.ofNat, (c == '\'') = false := by
    intro c hc
    obtain ⟨b, hb, rfl⟩ := List.mem_map.1 hc
    obtain ⟨h1, h2, h3, h4⟩ := h b hb
    simpa using (repr_plain b h1 h2 h3 h4).2
  unfold strBytes
  simp only [if_neg hq, hr, List.drop_one, List.cons_append, List.tail_cons]
  unfold strip
  have e1 : List.dropWhile (· == '\'') ('\'' :: (name.map Char.ofNat ++ ['\''])) = List.dropWhile (· == '\'') (name.map Char.ofNat ++ ['\'']) := by
    simp
  rw [e1]
  cases hn : name.map Char.ofNat with
  | nil => simp
  | cons c cs =>
    rw [hn] at hm
    have e2 : List.dropWhile (· == '\'') (c :: cs ++ ['\'']) = c :: cs ++ ['\''] := by
      rw [List.cons_append, List.dropWhile_cons, if_neg (by simpa using hm c (by simp))]
    rw [e2, List.reverse_append]
    simp only [List.reverse_cons, List.reverse_nil, List.nil_append, List.singleton_append]
    rw [List.dropWhile_cons, if_pos (by simp), dropWhile_none]
    · simp
    · intro x hx
      exact hm x (by simpa [or_comm] using hx)

/-- **C119, refuted part.** A name with a single quote, a backslash or a character outside ASCII is reported as another one: `it's`, `a\b`, `é`. -/
theorem C119_name_refuted : strip ((strBytes [105, 116, 39, 115]).drop 1) = "\"it's\"".toList ∧ strip ((strBytes [97, 92, 98]).drop 1) = "a\\\\b".toList ∧
    strip ((strBytes [195, 169]).drop 1) = "\\xc3\\xa9".toList := by decide +kernel

/-- **C119.** One entry for every tensor, in order, with its index, shape, type and first scale and zero point; an exception if and only if a tensor has another type. -/
theorem C119_details (ts : List TensorRec) :
    (details ts = none ↔ ∃ t ∈ ts, ∃ n, t.info.type = .other n) ∧
    ∀ ds, details ts = some ds → ds.length = ts.length ∧ ∀ (i : Nat) (t : TensorRec) (d : Details), ts[i]? = some t → ds[i]? = some d →
      d.index = t.info.index ∧ d.shape = t.info.shape ∧ d.dtype = t.info.type ∧ d.quantization = (t.scales.getD 0 0, t.zeros.getD 0 0) ∧
        (Plain t.name → d.name = t.name.map Char.ofNat) := by
  have hone : ∀ t, (detailsOf t = none ↔ ∃ n, t.info.type = .other n) ∧ ∀ d, detailsOf t = some d →
      d = ⟨strip ((strBytes t.name).drop 1), t.info.index, t.info.shape, t.info.type, (t.scales.getD 0 0, t.zeros.getD 0 0)⟩ := by
    intro t
    unfold detailsOf
    cases ht : t.info.type <;> simp <;> intro d hd <;> exact hd.symm
  induction ts with
  | nil =>
    refine ⟨by simp [details], ?_⟩
    intro ds h
    simp only [details, Option.some.injEq] at h
    subst h
    exact ⟨rfl, by simp⟩
  | cons t ts ih =>
    rw [details]
    cases hd : detailsOf t with
    | none =>
      refine ⟨?_, by simp⟩
      have := (hone t).1.1 hd
      exact ⟨fun _ => ⟨t, by simp, this⟩, fun _ => rfl⟩
    | some d =>
      have hd' := (hone t).2 d hd
      have hno : ¬ ∃ n, t.info.type = .other n := fun hc => by rw [(hone t).1.2 hc] at hd; cases hd
      dsimp only
      cases hds : details ts with
      | none =>
        refine ⟨⟨fun _ => ?_, fun _ => rfl⟩, by simp⟩
        obtain ⟨u, hu, hn⟩ := ih.1.1 hds
        exact ⟨u, List.mem_cons_of_mem _ hu, hn⟩
      | some ds =>
        refine ⟨⟨by simp, ?_⟩, ?_⟩
        · rintro ⟨u, hu, hn⟩
          rcases List.mem_cons.1 hu with rfl | hu
          · exact absurd hn hno
          · rw [ih.1.2 ⟨u, hu, hn⟩] at hds; cases hds
        · intro ds' h
          simp only [Option.map_some, Option.some.injEq] at h
          subst h
          obtain ⟨h1, h2⟩ := ih.2 ds hds
          refine ⟨by simp [h1], ?_⟩
          intro i u v hu hv
          cases i with
          | zero =>
            simp only [List.getElem?_cons_zero, Option.some.injEq] at hu hv
            subst hu hv
            rw [hd']
            exact ⟨rfl, rfl, rfl, rfl, fun hp => C119_name hp⟩
          | succ i =>
            simp only [List.getElem?_cons_succ] at hu hv
            exact h2 i u v hu hv

/-- **C119.** TensorFlow Lite's way of using the details: if the inputs' tensor indices are 0, 1, ... and the outputs' indices differ, then setting inputs with
`set_tensor(get_input_details()[i]["index"], v)`, invoking, and reading `get_tensor(get_output_details()[j]["index"])` gives output `j` on these inputs. -/
theorem C119_by_details {m : Model} (ok : m.OK) (ins outs : List TensorRec) (hi : ins.map (·.info) = m.inputs) (ho : outs.map (·.info) = m.outputs)
    (hpos : ∀ (i : Nat) (t : TensorInfo), m.inputs[i]? = some t → t.index = i) (hnd : (m.outputs.map (·.index)).Nodup) (before : List Call) (hb : ∀ c ∈ before, Fits m c)
    (sets : List (Nat × Bytes)) (hs : ∀ p ∈ sets, ∃ t, m.inputs[p.1]? = some t ∧ p.2.length = t.bytes)
    (vals : List Bytes) (hlen : vals.length = m.inputs.length) (hvals : ∀ i (h : i < vals.length), lastSet sets i = some vals[i]) (j : Nat) (hj : j < m.outputs.length) :
    ∃ (di do_ : List Details), details ins = some di ∧ details outs = some do_ ∧
    ∃ (s0 s : State) (e0 : Engine) (r0 reply : Bytes), calls fresh (.setModel m 0 :: before) [] = .ok s0 r0 ∧ s0.obj = some e0 ∧
      calls fresh (.setModel m 0 :: before ++ sets.map (fun p => Call.setTensor ((di[p.1]?.map (·.index)).getD 0) p.2 0) ++
        [.invoke 0, .getTensor ((do_[j]?.map (·.index)).getD 0) none 0]) [] = .ok s reply ∧
      (m.run e0.st vals).2.1[j]? = some reply := by
  have hsome : ∀ ts : List TensorRec, (∀ t ∈ ts, ∀ n, t.info.type ≠ .other n) → ∃ ds, details ts = some ds := by
    intro ts hts
    cases h : details ts with
    | some ds => exact ⟨ds, rfl⟩
    | none =>
      obtain ⟨t, ht, n, hn⟩ := (C119_details ts).1.1 h
      exact absurd hn (hts t ht n)
  have hidx : ∀ (ts : List TensorRec) ds, details ts = some ds → ∀ (i : Nat) (t : TensorInfo), (ts.map (·.info))[i]? = some t → (ds[i]?.map (·.index)).getD 0 = t.index := by
    intro ts ds hds i t ht
    rw [List.getElem?_map] at ht
    cases hu : ts[i]? with
    | none => rw [hu] at ht; cases ht
    | some u =>
      rw [hu] at ht
      obtain rfl := Option.some.inj ht
      obtain ⟨h1, h2⟩ := (C119_details ts).2 ds hds
      have hl : i < ds.length := by rw [h1]; exact (List.getElem?_eq_some_iff.1 hu).1
      have := (h2 i u ds[i] hu (List.getElem?_eq_getElem hl)).1
      rw [List.getElem?_eq_getElem hl]
      exact this
  obtain ⟨di, hdi⟩ := hsome ins fun t ht => ok.typesIn _ (by rw [← hi]; exact List.mem_map_of_mem ht)
  obtain ⟨do_, hdo⟩ := hsome outs fun t ht => ok.typesOut _ (by rw [← ho]; exact List.mem_map_of_mem ht)
  refine ⟨di, do_, hdi, hdo, ?_⟩
  have hset : sets.map (fun p => Call.setTensor ((di[p.1]?.map (·.index)).getD 0) p.2 0) = sets.map (fun p => Call.setTensor p.1 p.2 0) := by
    apply List.map_congr_left
    intro p hp
    obtain ⟨t, ht, -⟩ := hs p hp
    rw [hidx ins di hdi p.1 t (by rw [hi]; exact ht), hpos _ _ ht]
  have hjt : m.outputs[j]? = some m.outputs[j] := List.getElem?_eq_getElem hj
  have hout : (do_[j]?.map (·.index)).getD 0 = m.outputs[j].index := hidx outs do_ hdo j _ (by rw [ho]; exact hjt)
  rw [hset, hout]
  obtain ⟨s0, s, e0, r0, reply, k, t, h1, h2, h3, h4, h5, -, h7⟩ := C68_inference ok before hb sets hs vals hlen hvals m.outputs[j].index ⟨_, List.getElem_mem hj, rfl⟩
  have hk : k = j := by
    have hkl := (List.getElem?_eq_some_iff.1 h4).1
    have e1 : (m.outputs.map (·.index))[k]'(by simpa using hkl) = (m.outputs.map (·.index))[j]'(by simpa using hj) := by
      simp only [List.getElem_map]
      rw [← h5]
      congr 1
      exact (List.getElem?_eq_some_iff.1 h4).2
    exact (List.Nodup.getElem_inj_iff hnd).1 e1
  subst hk
  exact ⟨s0, s, e0, r0, reply, h1, h2, h3, h7⟩

/-! ### Examples -/

/-- Two inputs of one byte, whose tensors have the numbers `a` and `b`, and their difference. -/
def diff (a b : Nat) : Model :=
  ⟨[⟨a, [1], .int8⟩, ⟨b, [1], .int8⟩], [⟨7, [1], .int8⟩], true, ([[0], [0]], [[0]]), 0,
    fun st ins => (st, [[(ins.getD 0 []).getD 0 0 - (ins.getD 1 []).getD 0 0]], ins)⟩

theorem diff_ok (a b : Nat) : (diff a b).OK := by
  refine ⟨rfl, ⟨rfl, rfl⟩, fun st ins h => ⟨rfl, h⟩, ?_, ?_⟩
  · intro t ht n
    simp only [diff, List.mem_cons, List.not_mem_nil, or_false] at ht
    rcases ht with rfl | rfl <;> simp
  · intro t ht n
    simp only [diff, List.mem_singleton] at ht
    rw [ht]; simp

/-- The records of the inputs of `diff`. -/
def diffIns (a b : Nat) : List TensorRec := [⟨⟨a, [1], .int8⟩, [97], [1 / 2], [3]⟩, ⟨⟨b, [1], .int8⟩, [98], [1 / 4], [-3]⟩]

/-- The conditions of `C119_by_details` are met. -/
theorem C119_example : details (diffIns 0 1) = some [⟨['a'], 0, [1], .int8, (1 / 2, 3)⟩, ⟨['b'], 1, [1], .int8, (1 / 4, -3)⟩] ∧
    (∀ (i : Nat) (t : TensorInfo), (diff 0 1).inputs[i]? = some t → t.index = i) ∧ ((diff 0 1).outputs.map (·.index)).Nodup ∧
    ∃ s, calls fresh [.setModel (diff 0 1) 0, .setTensor 0 [9] 0, .setTensor 1 [2] 0, .invoke 0, .getTensor 7 none 0] [] = .ok s [7] := by
  refine ⟨rfl, ?_, by decide, ⟨_, rfl⟩⟩
  intro i t h
  match i with
  | 0 => obtain rfl := Option.some.inj h; rfl
  | 1 => obtain rfl := Option.some.inj h; rfl
  | i + 2 => simp [diff] at h

/-- **C119, refuted part.** `set_tensor` takes the input's position, not the tensor index of the details.  With inputs 1 and 0 in this order, each value goes to the other
input: 2 - 9 instead of 9 - 2 (subtraction of natural numbers); with inputs 3 and 4, no input is written. -/
theorem C119_index_refuted :
    (∃ s, calls fresh [.setModel (diff 1 0) 0, .setTensor 1 [9] 0, .setTensor 0 [2] 0, .invoke 0, .getTensor 7 none 0] [] = .ok s [0]) ∧
    (∃ d, details (diffIns 1 0) = some d ∧ d.map (·.index) = [1, 0]) ∧
    calls fresh [.setModel (diff 3 4) 0, .setTensor 3 [9] 0] [] = .undefined ∧ (∃ d, details (diffIns 3 4) = some d ∧ d.map (·.index) = [3, 4]) :=
  ⟨⟨_, rfl⟩, ⟨_, rfl, rfl⟩, rfl, ⟨_, rfl, rfl⟩⟩

end Verif.Host.Interp
