import Verif.MemPlan.InPlace
import Verif.Threads.Exec
/-!
Running a planned model in its arena with several threads, and with scratch tensors that are never written before use.

A convolution or max pooling gets a scratch tensor of `scratch bytes * number of threads` bytes, the result of a `fake_scratch`
operator that is not exported (ReplaceConv2D.cpp 191–207, ReplaceMaxPool2D.cpp 86–101, XCoreOps.td 391–398): to the planner it is a
tensor like any other, at run time nothing initialises it.  Thread `t` works in the `t`-th section of it.  The threads of one operator
run at the same time, the operators one after the other (external runtime: contract).

Here the operators act on the bytes of the arena: an atomic step of a thread writes one byte of its scratch section or one byte
of a result, computed from the operands and the section *as they are in the arena at that moment*.
-/
namespace Verif.MemPlan.Conc
open Verif.Threads (Interleaving)

/-- An atomic step of a thread: write byte `k` of the own scratch section, or byte `p` of the operator's result number `i`.  The value
is computed from the operands' bytes and the bytes of the own section. -/
inductive Step where
  | put (k : Nat) (g : List (List Byte) → List Byte → Byte)
  | emit (i p : Nat) (g : List (List Byte) → List Byte → Byte)

/-- An atomic step of an operator that works block by block: from the bytes `lo ≤ p < lo + len` of its operands (from the whole
of constant operands) to the same bytes of its result.  A block is read before it is written. -/
structure Block where
  lo : Nat
  len : Nat
  g : List (List Byte) → List Byte

/-- How the operator at a position is carried out. -/
inductive Impl where
  /-- `fake_scratch` (XCoreOps.td 391–398): no code, the result holds whatever is in the arena. -/
  | skip
  /-- One thread that reads all operands before it writes (padding in place: see C41). -/
  | whole
  /-- Threads that work block by block, possibly in place (look-up tables, addition, multiplication, 16-bit binary operators). -/
  | blocks (ps : List (List Block))
  /-- Threads with their programs; `scratch` is the scratch operand, `B` the bytes of one section
  (ReplaceConv2D.cpp 191–225: `scratchByteParam`, `actualThreadCount`). -/
  | threads (scratch : Option Nat) (B : Nat) (ps : List (List Step))

/-- The tensor is a scratch buffer: result of an operator without code. -/
def isScratch (f : Func) (impl : Nat → Impl) (v : Nat) : Bool :=
  match (f.decl v).defPos with
  | some j => match impl j with
    | .skip => true
    | _ => false
  | none => false

/-- The operands that carry data. -/
def dataOperands (scr : Nat → Bool) (o : Op) : List Nat := o.operands.filter fun v => !scr v

/-- The data an operator finds in the arena. -/
def arenaIns (f : Func) (impl : Nat → Impl) (offs : List Int) (c : Env) (o : Op) (m : Mem) : List (List Byte) :=
  (dataOperands (isScratch f impl) o).map (arenaOperand f offs m c)

/-- Write one byte. -/
def setByte (m : Mem) (a : Int) (b : Byte) : Mem := fun x => if x = a then b else m x

/-- A step in the arena: `data` is what the operator's operands hold, `base` the address of the thread's section, `res` the addresses
of the results. -/
def Step.exec (data : Mem → List (List Byte)) (B : Nat) (base : Int) (res : Nat → Int) (st : Step) (m : Mem) : Mem :=
  match st with
  | .put k g => setByte m (base + k) (g (data m) (m.read base B))
  | .emit i p g => setByte m (res i + p) (g (data m) (m.read base B))

/-- A schedule: which thread does which step. -/
def runSchedule (data : Mem → List (List Byte)) (B : Nat) (base : Int) (res : Nat → Int) (s : List (Nat × Step)) (m : Mem) : Mem :=
  s.foldl (fun m ta => ta.2.exec data B (base + ((ta.1 * B : Nat) : Int)) res m) m

/-- A block of the operator with operands `vs` and result `r`, in the arena. -/
def Block.exec (f : Func) (offs : List Int) (c : Env) (vs : List Nat) (r : Nat) (st : Block) (m : Mem) : Mem :=
  m.write (offsetOf offs r + st.lo)
    (st.g (vs.map fun v => if (f.decl v).isConst then c v else m.read (offsetOf offs v + st.lo) st.len))

/-- A schedule of blocks. -/
def runBlocks (f : Func) (offs : List Int) (c : Env) (vs : List Nat) (r : Nat) (s : List (Nat × Block)) (m : Mem) : Mem :=
  s.foldl (fun m ta => ta.2.exec f offs c vs r m) m

/-- The runs of a model in the arena, with the data each operator finds when it starts.  Constants are in the model file (`c`). -/
inductive Run (f : Func) (k : Kernels) (impl : Nat → Impl) (offs : List Int) :
    List Op → Nat → Mem → Env → List (List (List Byte)) → Prop where
  | nil (j : Nat) (m : Mem) (c : Env) : Run f k impl offs [] j m c []
  | const {o : Op} {os : List Op} {j : Nat} {m : Mem} {c : Env} {tr : List (List (List Byte))} :
      (o.isConst || o.isTerm) = true →
      Run f k impl offs os (j + 1) m (c.setFrom (f.result0 j) (k j (arenaIns f impl offs c o m))) tr →
      Run f k impl offs (o :: os) j m c (arenaIns f impl offs c o m :: tr)
  | skip {o : Op} {os : List Op} {j : Nat} {m : Mem} {c : Env} {tr : List (List (List Byte))} :
      (o.isConst || o.isTerm) = false → impl j = .skip →
      Run f k impl offs os (j + 1) m c tr →
      Run f k impl offs (o :: os) j m c (arenaIns f impl offs c o m :: tr)
  | whole {o : Op} {os : List Op} {j : Nat} {m : Mem} {c : Env} {tr : List (List (List Byte))} :
      (o.isConst || o.isTerm) = false → impl j = .whole →
      Run f k impl offs os (j + 1) (writeResults offs (f.result0 j) (k j (arenaIns f impl offs c o m)) m) c tr →
      Run f k impl offs (o :: os) j m c (arenaIns f impl offs c o m :: tr)
  | blocks {o : Op} {os : List Op} {j : Nat} {m : Mem} {c : Env} {tr : List (List (List Byte))}
      {ps : List (List Block)} {s : List (Nat × Block)} :
      (o.isConst || o.isTerm) = false → impl j = .blocks ps → Interleaving ps s →
      Run f k impl offs os (j + 1) (runBlocks f offs c (dataOperands (isScratch f impl) o) (f.result0 j) s m) c tr →
      Run f k impl offs (o :: os) j m c (arenaIns f impl offs c o m :: tr)
  | threads {o : Op} {os : List Op} {j : Nat} {m : Mem} {c : Env} {tr : List (List (List Byte))}
      {sc : Option Nat} {B : Nat} {ps : List (List Step)} {s : List (Nat × Step)} :
      (o.isConst || o.isTerm) = false → impl j = .threads sc B ps → Interleaving ps s →
      Run f k impl offs os (j + 1)
        (runSchedule (arenaIns f impl offs c o) B ((sc.map (offsetOf offs)).getD 0) (fun i => offsetOf offs (f.result0 j + i)) s m)
        c tr →
      Run f k impl offs (o :: os) j m c (arenaIns f impl offs c o m :: tr)

/-! ### Specification -/

/-- The reference: every tensor has its own memory, one operator after the other; kernels see the data operands. -/
def refRun (f : Func) (k : Kernels) (scr : Nat → Bool) : List Op → Nat → Env → List (List (List Byte))
  | [], _, _ => []
  | o :: os, j, e =>
      let ins := (dataOperands scr o).map e
      ins :: refRun f k scr os (j + 1) (e.setFrom (f.result0 j) (k j ins))

/-- What a thread *alone* leaves in byte `p` of result `i`, working on private copies of the operands and of its section; `cur` is what was
there before. -/
def soloValue (ins : List (List Byte)) (i p : Nat) : List Step → List Byte → Byte → Byte
  | [], _, cur => cur
  | .put k g :: q, sec, cur => soloValue ins i p q (sec.set k (g ins sec)) cur
  | .emit i' p' g :: q, sec, cur => soloValue ins i p q sec (if i' = i ∧ p' = p then g ins sec else cur)

/-- The step writes byte `p` of result `i`. -/
def Step.writes (i p : Nat) : Step → Prop
  | .put _ _ => False
  | .emit i' p' _ => i' = i ∧ p' = p

/-- The step stays inside the section and inside the results. -/
def Step.Inside (B : Nat) (sizes : List Nat) : Step → Prop
  | .put k _ => k < B
  | .emit i p _ => ∃ n, sizes[i]? = some n ∧ p < n

/-- The programs implement the kernel of an operator with `arity` data operands: steps stay inside, and every byte of the results belongs to one thread, which alone,
whatever its section holds at the start, leaves the right value there. -/
def Implements (arity : Nat) (kern : List (List Byte) → List (List Byte)) (sizes : List Nat) (B : Nat) (ps : List (List Step)) : Prop :=
  (∀ q ∈ ps, ∀ st ∈ q, st.Inside B sizes) ∧
  ∀ (ins : List (List Byte)) (i : Nat) (out : List Byte) (p : Nat) (b : Byte), ins.length = arity →
    (kern ins)[i]? = some out → out[p]? = some b →
    ∃ (t : Nat) (q : List Step), ps[t]? = some q ∧
      (∀ (t' : Nat) (q' : List Step), t' ≠ t → ps[t']? = some q' → ∀ st ∈ q', ¬ st.writes i p) ∧
      ∀ (sec : List Byte) (cur : Byte), sec.length = B → soloValue ins i p q sec cur = b

/-- Bytes `lo ≤ p < lo + len`. -/
def slice (lo len : Nat) (bs : List Byte) : List Byte := (bs.drop lo).take len

/-- The programs of blocks implement the kernel of an operator with data operands `vs` and one result of `n` bytes: operands in the arena
have the size of the result, the blocks partition the result, and each computes its part from the same part of the operands. -/
structure BlocksOK (f : Func) (kern : List (List Byte) → List (List Byte)) (vs : List Nat) (n : Nat) (ps : List (List Block)) : Prop where
  sizes : ∀ v ∈ vs, (f.decl v).isConst = false → f.raw v = n
  inside : ∀ st ∈ ps.flatten, st.lo + st.len ≤ n
  disjoint : ps.flatten.Pairwise fun a b => a.lo + a.len ≤ b.lo ∨ b.lo + b.len ≤ a.lo
  cover : ∀ p, p < n → ∃ st ∈ ps.flatten, st.lo ≤ p ∧ p < st.lo + st.len
  law : ∀ val : Nat → List Byte, (∀ v ∈ vs, (f.decl v).isConst = false → (val v).length = n) →
    ∃ out, kern (vs.map val) = [out] ∧ ∀ st ∈ ps.flatten,
      st.g (vs.map fun v => if (f.decl v).isConst then val v else slice st.lo st.len (val v)) = slice st.lo st.len out

/-- The operators are carried out as the compiler arranges it. -/
structure ImplOK (f : Func) (k : Kernels) (impl : Nat → Impl) : Prop where
  /-- Threaded and scratch operators do not work in place. -/
  notInPlace : ∀ j, j < f.ops.length → (f.op j).overlappable = true → impl j = .whole ∨ ∃ ps, impl j = .blocks ps
  /-- Operators that work block by block. -/
  blocks : ∀ j ps, j < f.ops.length → impl j = .blocks ps → ∃ n, (f.op j).resultSizes = [n] ∧
    BlocksOK f (k j) (dataOperands (isScratch f impl) (f.op j)) n ps
  /-- A scratch tensor is only an operand of threaded operators, as their scratch; several may share it. -/
  scratchUse : ∀ v q, isScratch f impl v = true → f.UsedAt v q → (f.op q).isTerm = false ∧ ∃ B ps, impl q = .threads (some v) B ps
  /-- The scratch operand of a threaded operator is a scratch tensor with room for all sections; without one there are no
  sections. -/
  scratchRoom : ∀ j sc B ps, j < f.ops.length → impl j = .threads sc B ps → match sc with
    | some v => v ∈ (f.op j).operands ∧ isScratch f impl v = true ∧ (f.decl v).isConst = false ∧ B * ps.length ≤ f.raw v
    | none => B = 0
  correct : ∀ j sc B ps, j < f.ops.length → impl j = .threads sc B ps →
    Implements (dataOperands (isScratch f impl) (f.op j)).length (k j) (f.op j).resultSizes B ps

/-! ### Proofs -/

theorem read_getElem (m : Mem) (off : Int) (n p : Nat) (h : p < n) : (m.read off n)[p]? = some (m (off + p)) := by
  induction n generalizing off p with
  | zero => omega
  | succ n ih =>
    cases p with
    | zero => simp [Mem.read]
    | succ p =>
      simp only [Mem.read, List.getElem?_cons_succ]
      rw [ih (off + 1) p (by omega)]
      congr 2; push_cast; omega

theorem read_length (m : Mem) (off : Int) (n : Nat) : (m.read off n).length = n := by
  induction n generalizing off with
  | zero => rfl
  | succ n ih => simp [Mem.read, ih]

theorem read_eq_of (m : Mem) (off : Int) (l : List Byte) (h : ∀ (p : Nat) (b : Byte), l[p]? = some b → m (off + p) = b) :
    m.read off l.length = l := by
  apply List.ext_getElem?
  intro p
  by_cases hp : p < l.length
  · rw [read_getElem _ _ _ _ hp, List.getElem?_eq_getElem hp, h p _ (List.getElem?_eq_getElem hp)]
  · rw [List.getElem?_eq_none (by rw [read_length]; omega), List.getElem?_eq_none (by omega)]

theorem read_setByte_in (m : Mem) (base : Int) (B k : Nat) (b : Byte) (hk : k < B) :
    (setByte m (base + k) b).read base B = (m.read base B).set k b := by
  apply List.ext_getElem?
  intro p
  by_cases hp : p < B
  · rw [read_getElem _ _ _ _ hp, List.getElem?_set]
    by_cases hkp : k = p
    · subst hkp
      simp [setByte, read_length, hp]
    · rw [if_neg hkp, read_getElem _ _ _ _ hp]
      have : base + (p : Int) ≠ base + k := by omega
      simp [setByte, this]
  · rw [List.getElem?_eq_none (by rw [read_length]; omega), List.getElem?_eq_none (by rw [List.length_set, read_length]; omega)]

theorem read_setByte_out (m : Mem) (base : Int) (n : Nat) (a : Int) (b : Byte) (h : a < base ∨ base + n ≤ a) :
    (setByte m a b).read base n = m.read base n := by
  apply Mem.read_congr
  intro x h1 h2
  have : x ≠ a := by omega
  simp [setByte, this]

/-- Layout facts used for one operator. -/
structure Layout (data : Mem → List (List Byte)) (B T : Nat) (base : Int) (res : Nat → Int) (sizes : List Nat) : Prop where
  /-- results are pairwise disjoint -/
  resDisj : ∀ (i i' n n' : Nat), sizes[i]? = some n → sizes[i']? = some n' → i ≠ i' → RangesDisjoint (res i) n (res i') n'
  /-- results and scratch are disjoint -/
  scrDisj : ∀ (i n : Nat), sizes[i]? = some n → B = 0 ∨ RangesDisjoint base ((B * T : Nat) : Int) (res i) n
  /-- the data does not depend on scratch and results -/
  frame : ∀ (m : Mem) (a : Int) (b : Byte), (base ≤ a ∧ a < base + ((B * T : Nat) : Int)) ∨
    (∃ (i n : Nat), sizes[i]? = some n ∧ res i ≤ a ∧ a < res i + n) → data (setByte m a b) = data m

theorem section_in {B T t k : Nat} (ht : t < T) (hk : k < B) : t * B + k < B * T := by
  have : (t + 1) * B ≤ T * B := Nat.mul_le_mul_right _ ht
  rw [Nat.succ_mul] at this
  rw [Nat.mul_comm B]; omega

section
variable {data : Mem → List (List Byte)} {B T : Nat} {base : Int} {res : Nat → Int} {sizes : List Nat}

theorem exec_data (L : Layout data B T base res sizes) {st : Step} (hin : st.Inside B sizes) {t : Nat} (ht : t < T) (m : Mem) :
    data (st.exec data B (base + ((t * B : Nat) : Int)) res m) = data m := by
  cases st with
  | put k g =>
    apply L.frame
    left
    have := section_in (T := T) ht (show k < B from hin)
    constructor <;> (push_cast at *; omega)
  | emit i p g =>
    obtain ⟨n, h1, h2⟩ := hin
    apply L.frame
    exact Or.inr ⟨i, n, h1, by omega, by omega⟩

/-- A step changes only bytes of the scratch tensor and of the results. -/
theorem exec_frame {st : Step} (hin : st.Inside B sizes) {t : Nat} (ht : t < T) (m : Mem) (a : Int)
    (h1 : a < base ∨ base + ((B * T : Nat) : Int) ≤ a) (h2 : ∀ (i n : Nat), sizes[i]? = some n → a < res i ∨ res i + n ≤ a) :
    st.exec data B (base + ((t * B : Nat) : Int)) res m a = m a := by
  cases st with
  | put k g =>
    have := section_in (T := T) ht (show k < B from hin)
    have hne : a ≠ base + ((t * B : Nat) : Int) + (k : Int) := by push_cast at *; omega
    simp only [Step.exec, setByte, if_neg hne]
  | emit i p g =>
    obtain ⟨n, h3, h4⟩ := hin
    have h5 := h2 i n h3
    have hne : a ≠ res i + (p : Int) := by omega
    simp only [Step.exec, setByte, if_neg hne]

theorem run_data (L : Layout data B T base res sizes) (s : List (Nat × Step)) (h : ∀ ta ∈ s, ta.1 < T ∧ ta.2.Inside B sizes) (m : Mem) :
    data (runSchedule data B base res s m) = data m := by
  induction s generalizing m with
  | nil => rfl
  | cons ta s ih =>
    show data (runSchedule data B base res s _) = _
    rw [ih (fun x hx => h x (List.mem_cons_of_mem _ hx)), exec_data L (h ta (List.mem_cons_self)).2 (h ta (List.mem_cons_self)).1]

theorem run_frame (s : List (Nat × Step)) (h : ∀ ta ∈ s, ta.1 < T ∧ ta.2.Inside B sizes) (m : Mem) (a : Int)
    (h1 : a < base ∨ base + ((B * T : Nat) : Int) ≤ a) (h2 : ∀ (i n : Nat), sizes[i]? = some n → a < res i ∨ res i + n ≤ a) :
    runSchedule data B base res s m a = m a := by
  induction s generalizing m with
  | nil => rfl
  | cons ta s ih =>
    show runSchedule data B base res s _ a = _
    rw [ih (fun x hx => h x (List.mem_cons_of_mem _ hx))]
    exact exec_frame (h ta (List.mem_cons_self)).2 (h ta (List.mem_cons_self)).1 _ _ h1 h2

/-- The main simulation: what a schedule leaves in a byte that only thread `t` writes is what thread `t` alone would leave. -/
theorem schedule_solo (L : Layout data B T base res sizes) {ps : List (List Step)} {s : List (Nat × Step)} (hs : Interleaving ps s)
    (hT : ps.length = T) (hin : ∀ q ∈ ps, ∀ st ∈ q, st.Inside B sizes) (t : Nat) (q : List Step) (hq : ps[t]? = some q)
    (i n p : Nat) (hi : sizes[i]? = some n) (hp : p < n)
    (hother : ∀ (t' : Nat) (q' : List Step), t' ≠ t → ps[t']? = some q' → ∀ st ∈ q', ¬ st.writes i p) (m : Mem) :
    runSchedule data B base res s m (res i + p) =
      soloValue (data m) i p q (m.read (base + ((t * B : Nat) : Int)) B) (m (res i + p)) := by
  induction hs generalizing q m with
  | done h =>
    have := h q (List.mem_of_getElem? hq)
    subst this
    rfl
  | @step ps t' a rest s hget _ ih =>
    have htT : t < T := by rw [← hT]; exact (List.getElem?_eq_some_iff.1 hq).1
    have ht'T : t' < T := by rw [← hT]; exact (List.getElem?_eq_some_iff.1 hget).1
    have hmem : a :: rest ∈ ps := List.mem_of_getElem? hget
    have hain : a.Inside B sizes := hin _ hmem a (List.mem_cons_self)
    have hin' : ∀ q ∈ ps.set t' rest, ∀ st ∈ q, st.Inside B sizes := by
      intro q hq st hst
      rcases List.mem_or_eq_of_mem_set hq with h | h
      · exact hin q h st hst
      · exact hin _ hmem st (List.mem_cons_of_mem _ (h ▸ hst))
    have hdata := exec_data L hain ht'T m
    show runSchedule data B base res s (a.exec data B (base + ((t' * B : Nat) : Int)) res m) (res i + p) = _
    by_cases htt : t' = t
    · subst htt
      have hqq : q = a :: rest := by rw [hget] at hq; exact (Option.some.inj hq).symm
      subst hqq
      have hlt := (List.getElem?_eq_some_iff.1 hget).1
      have := ih (by rw [List.length_set]; exact hT) hin' rest (by rw [List.getElem?_set]; simp [hlt]) (by
        intro t'' q' hne hq'
        rw [List.getElem?_set, if_neg (Ne.symm hne)] at hq'
        exact hother t'' q' hne hq') (a.exec data B (base + ((t' * B : Nat) : Int)) res m)
      rw [this, hdata]
      cases a with
      | put k g =>
        have hk : k < B := hain
        simp only [Step.exec, soloValue]
        rw [read_setByte_in _ _ _ _ _ hk]
        have hne : res i + (p : Int) ≠ base + ((t' * B : Nat) : Int) + (k : Int) := by
          have h1 := L.scrDisj i n hi
          have h2 := section_in (T := T) ht'T hk
          unfold RangesDisjoint at h1
          push_cast at *; omega
        simp only [setByte, if_neg hne]
      | emit i' p' g =>
        obtain ⟨n', h1, h2⟩ := hain
        simp only [Step.exec, soloValue]
        rw [read_setByte_out]
        · congr 1
          by_cases hip : i' = i ∧ p' = p
          · obtain ⟨rfl, rfl⟩ := hip
            simp [setByte]
          · rw [if_neg hip]
            have hne : res i + (p : Int) ≠ res i' + (p' : Int) := by
              by_cases hii : i' = i
              · subst hii
                have : p' ≠ p := fun e => hip ⟨rfl, e⟩
                omega
              · have h3 := L.resDisj i' i n' n h1 hi hii
                unfold RangesDisjoint at h3
                omega
            simp only [setByte, if_neg hne]
        · have h3 := L.scrDisj i' n' h1
          have h4 : t' * B + B ≤ B * T := by
            have : (t' + 1) * B ≤ T * B := Nat.mul_le_mul_right _ ht'T
            rw [Nat.succ_mul] at this
            rw [Nat.mul_comm B]; omega
          unfold RangesDisjoint at h3
          push_cast at *; omega
    · have := ih (by rw [List.length_set]; exact hT) hin' q (by rw [List.getElem?_set, if_neg htt]; exact hq) (by
        intro t'' q' hne hq' st hst
        rw [List.getElem?_set] at hq'
        split at hq'
        · rename_i h
          subst h
          rw [if_pos (List.getElem?_eq_some_iff.1 hget).1] at hq'
          obtain rfl := Option.some.inj hq'
          exact hother t' _ htt hget st (List.mem_cons_of_mem _ hst)
        · exact hother t'' q' hne hq' st hst) (a.exec data B (base + ((t' * B : Nat) : Int)) res m)
      rw [this, hdata]
      have hnw := hother t' _ htt hget a (List.mem_cons_self)
      cases a with
      | put k g =>
        have hk : k < B := hain
        simp only [Step.exec]
        have hne : res i + (p : Int) ≠ base + ((t' * B : Nat) : Int) + (k : Int) := by
          have h1 := L.scrDisj i n hi
          have h2 := section_in (T := T) ht'T hk
          unfold RangesDisjoint at h1
          push_cast at *; omega
        have hsec : t' * B + k < t * B ∨ t * B + B ≤ t' * B + k := by
          rcases Nat.lt_or_ge t' t with h | h
          · have : (t' + 1) * B ≤ t * B := Nat.mul_le_mul_right _ h
            rw [Nat.succ_mul] at this; omega
          · have : (t + 1) * B ≤ t' * B := Nat.mul_le_mul_right _ (by omega)
            rw [Nat.succ_mul] at this; omega
        rw [read_setByte_out _ _ _ _ _ (by push_cast at *; omega)]
        simp only [setByte, if_neg hne]
      | emit i' p' g =>
        obtain ⟨n', h1, h2⟩ := hain
        have hip : ¬ (i' = i ∧ p' = p) := hnw
        simp only [Step.exec]
        have hne : res i + (p : Int) ≠ res i' + (p' : Int) := by
          by_cases hii : i' = i
          · subst hii
            have : p' ≠ p := fun e => hip ⟨rfl, e⟩
            omega
          · have h3 := L.resDisj i' i n' n h1 hi hii
            unfold RangesDisjoint at h3
            omega
        rw [read_setByte_out]
        · simp only [setByte, if_neg hne]
        · have h3 := L.scrDisj i' n' h1
          have h4 : t * B + B ≤ B * T := by
            have : (t + 1) * B ≤ T * B := Nat.mul_le_mul_right _ htT
            rw [Nat.succ_mul] at this
            rw [Nat.mul_comm B]; omega
          unfold RangesDisjoint at h3
          push_cast at *; omega

end

/-! #### Blocks -/

theorem interleaving_perm {α : Type} {ps : List (List α)} {s : List (Nat × α)} (h : Interleaving ps s) :
    (s.map Prod.snd).Perm ps.flatten := by
  induction h with
  | @done ps h =>
    have : ps.flatten = [] := by
      rw [List.flatten_eq_nil_iff]; exact h
    rw [this]; exact List.Perm.refl _
  | @step ps t a rest s hget _ ih =>
    have hlt := (List.getElem?_eq_some_iff.1 hget).1
    have hge := (List.getElem?_eq_some_iff.1 hget).2
    have key : (a :: (ps.set t rest).flatten).Perm ps.flatten := by
      have e1 : ps = ps.take t ++ (a :: rest) :: ps.drop (t + 1) := by
        rw [← hge, ← List.drop_eq_getElem_cons hlt, List.take_append_drop]
      have e2 : ps.set t rest = ps.take t ++ rest :: ps.drop (t + 1) := List.set_eq_take_append_cons_drop .. |>.trans (if_pos hlt)
      rw [e2]
      conv_rhs => rw [e1]
      simp only [List.flatten_append, List.flatten_cons, List.cons_append]
      exact (List.perm_middle).symm
    rw [List.map_cons]
    exact (List.Perm.cons a ih).trans key

theorem slice_getElem (lo len : Nat) (bs : List Byte) (q : Nat) (hq : q < len) : (slice lo len bs)[q]? = bs[lo + q]? := by
  unfold slice
  rw [List.getElem?_take, if_pos hq, List.getElem?_drop]

theorem slice_length {lo len : Nat} {bs : List Byte} (h : lo + len ≤ bs.length) : (slice lo len bs).length = len := by
  unfold slice
  rw [List.length_take, List.length_drop]; omega

theorem slice_read (m : Mem) (off : Int) (n lo len : Nat) (h : lo + len ≤ n) :
    slice lo len (m.read off n) = m.read (off + lo) len := by
  apply List.ext_getElem?
  intro q
  by_cases hq : q < len
  · rw [slice_getElem _ _ _ _ hq, read_getElem _ _ _ _ (by omega), read_getElem _ _ _ _ hq]
    congr 2; push_cast; omega
  · rw [List.getElem?_eq_none (by rw [slice_length (by rw [read_length]; exact h)]; omega),
      List.getElem?_eq_none (by rw [read_length]; omega)]

theorem blocks_run (f : Func) (offs : List Int) (c : Env) (vs : List Nat) (r n : Nat) (val : Nat → List Byte) (out : List Byte) (hout : out.length = n)
    (hloc : ∀ v ∈ vs, (f.decl v).isConst = false →
      offsetOf offs v = offsetOf offs r ∨ RangesDisjoint (offsetOf offs v) n (offsetOf offs r) n)
    (hc : ∀ v ∈ vs, (f.decl v).isConst = true → c v = val v)
    (l : List Block) (hin : ∀ st ∈ l, st.lo + st.len ≤ n)
    (hdisj : l.Pairwise fun a b => a.lo + a.len ≤ b.lo ∨ b.lo + b.len ≤ a.lo)
    (hg : ∀ st ∈ l, st.g (vs.map fun v => if (f.decl v).isConst then val v else slice st.lo st.len (val v)) = slice st.lo st.len out)
    (m : Mem) (hm : ∀ st ∈ l, ∀ v ∈ vs, (f.decl v).isConst = false →
      m.read (offsetOf offs v + st.lo) st.len = slice st.lo st.len (val v)) :
    (∀ st ∈ l, (l.foldl (fun m st => st.exec f offs c vs r m) m).read (offsetOf offs r + st.lo) st.len = slice st.lo st.len out) ∧
    ∀ a, (∀ st ∈ l, a < offsetOf offs r + st.lo ∨ offsetOf offs r + st.lo + st.len ≤ a) →
      l.foldl (fun m st => st.exec f offs c vs r m) m a = m a := by
  induction l generalizing m with
  | nil => exact ⟨fun _ h => by simp at h, fun _ _ => rfl⟩
  | cons st l ih =>
    rw [List.pairwise_cons] at hdisj
    have hst := hin st (List.mem_cons_self)
    have hw : st.exec f offs c vs r m = m.write (offsetOf offs r + st.lo) (slice st.lo st.len out) := by
      unfold Block.exec
      rw [← hg st (List.mem_cons_self)]
      congr 2
      apply List.map_congr_left
      intro v hv
      cases hcv : (f.decl v).isConst with
      | true => rw [if_pos rfl, if_pos rfl, hc v hv hcv]
      | false => rw [if_neg (by decide), if_neg (by decide), hm st (List.mem_cons_self) v hv hcv]
    have hlen : (slice st.lo st.len out).length = st.len := slice_length (by omega)
    obtain ⟨i1, i2⟩ := ih (fun x hx => hin x (List.mem_cons_of_mem _ hx)) hdisj.2 (fun x hx => hg x (List.mem_cons_of_mem _ hx))
      (st.exec f offs c vs r m) (by
        intro st' hst' v hv hcv
        rw [← hm st' (List.mem_cons_of_mem _ hst') v hv hcv, hw]
        apply Mem.read_write_disjoint
        rw [hlen]
        have h1 := hdisj.1 st' hst'
        have h2 := hin st' (List.mem_cons_of_mem _ hst')
        rcases hloc v hv hcv with h | h
        · rw [h]; unfold RangesDisjoint; omega
        · unfold RangesDisjoint at *; omega)
    constructor
    · intro st' hst'
      rw [List.foldl_cons]
      rcases List.mem_cons.1 hst' with h | h
      · subst h
        have : ((l.foldl (fun m st => st.exec f offs c vs r m) (st'.exec f offs c vs r m))).read (offsetOf offs r + st'.lo) st'.len =
            (st'.exec f offs c vs r m).read (offsetOf offs r + st'.lo) st'.len := by
          apply Mem.read_congr
          intro a h1 h2
          apply i2
          intro st'' hst''
          have := hdisj.1 st'' hst''
          omega
        rw [this, hw]
        have := Mem.read_write_same m (offsetOf offs r + st'.lo) (slice st'.lo st'.len out)
        rw [hlen] at this
        exact this
      · exact i1 st' h
    · intro a ha
      rw [List.foldl_cons, i2 a (fun x hx => ha x (List.mem_cons_of_mem _ hx)), hw]
      apply Mem.write_other
      rw [hlen]
      exact ha st (List.mem_cons_self)

/-! #### Whole models -/

/-- What the argument needs from the plan: tensors live at the same time overlap only along in-place chains. -/
def Separates (f : Func) (offs : List Int) : Prop :=
  ∀ v w t, f.Arena v → f.Arena w → v ≠ w → f.LiveAt v t → f.LiveAt w t → ¬ f.InPlaceChain v w → ¬ f.InPlaceChain w v →
    RangesDisjoint (offsetOf offs v) (f.raw v) (offsetOf offs w) (f.raw w)

/-- A tensor computed in place of one of the same size is at the same offset, or elsewhere. -/
def SamePlace (f : Func) (offs : List Int) : Prop :=
  ∀ v w, f.Arena v → f.InPlaceStep v w → f.raw v = f.raw w →
    offsetOf offs v = offsetOf offs w ∨ RangesDisjoint (offsetOf offs v) (f.raw v) (offsetOf offs w) (f.raw w)

theorem samePlace_of_plan {f : Func} (wf : f.WF) (ip : f.InPlaceOK) {b : Bool} {p : Plan}
    (h : getAllocatedOffsets f b = some p) : SamePlace f p.offsets := by
  intro v w hv hs he
  rcases C41_in_place_gap wf ip h hv hs with hd | ⟨_, _, _, _, h5⟩
  · right
    have := roundUp8_ge (f.raw v)
    have := roundUp8_ge (f.raw w)
    unfold RangesDisjoint at *; omega
  · exact Or.inl (h5 he)

/-- A chain from an operand of an operator to its result is a single step. -/
theorem chain_step {f : Func} {v w j : Nat} (wf : f.WF) (ip : f.InPlaceOK) (h : f.InPlaceChain v w) (hu : f.UsedAt v j)
    (hd : f.DefinedAt w j) : f.InPlaceStep v w := by
  cases h with
  | single h => exact h
  | @cons _ u _ hs hc =>
    exfalso
    obtain ⟨j', hu', ho, hq, rfl⟩ := hs
    have hj := hq j hu
    subst hj
    obtain ⟨j', h1, _, h3⟩ := chain_before wf ip hc
    have hd' := result0_definedAt f hu.1 (ip.proper j hu.1 ho).2.2
    have e1 := definedAt_unique f hd h1
    rcases h3 with h | ⟨i, hi, hl⟩
    · exact definedAt_not_arg f hd' h
    · have := definedAt_unique f hd' hi; omega

/-- A chain ends in the result of an in-place operator. -/
theorem chain_last {f : Func} {v w : Nat} (h : f.InPlaceChain v w) :
    ∃ j, j < f.ops.length ∧ (f.op j).overlappable = true ∧ w = f.result0 j := by
  induction h with
  | single h => obtain ⟨j, hu, ho, _, rfl⟩ := h; exact ⟨j, hu.1, ho, rfl⟩
  | cons _ _ ih => exact ih

/-- A chain starts at an operand of an in-place operator that is its only reader. -/
theorem chain_first {f : Func} {v w : Nat} (h : f.InPlaceChain v w) :
    ∃ j, f.UsedAt v j ∧ (f.op j).overlappable = true ∧ ∀ q, f.UsedAt v q → q = j := by
  cases h with
  | single h => obtain ⟨j, hu, ho, hq, _⟩ := h; exact ⟨j, hu, ho, hq⟩
  | cons h _ => obtain ⟨j, hu, ho, hq, _⟩ := h; exact ⟨j, hu, ho, hq⟩

theorem separates_of_plan {f : Func} (wf : f.WF) (ip : f.InPlaceOK) {b : Bool} {p : Plan}
    (h : getAllocatedOffsets f b = some p) : Separates f p.offsets := by
  intro v w t hv hw hne hlv hlw h1 h2
  have := C05_sharing_only_along_in_place_chains wf ip h hv hw hne hlv hlw h1 h2
  have := roundUp8_ge (f.raw v)
  have := roundUp8_ge (f.raw w)
  unfold RangesDisjoint at *; omega

/-- The invariant before the operator at position `j`. -/
def Sim (f : Func) (impl : Nat → Impl) (offs : List Int) (j : Nat) (m : Mem) (c e : Env) : Prop :=
  ∀ v, isScratch f impl v = false → (f.IsArg v ∨ ∃ i, f.DefinedAt v i ∧ i < j) → (∃ q, j ≤ q ∧ f.UsedAt v q) →
    arenaOperand f offs m c v = e v

theorem live_before {f : Func} {v j : Nat} (hb : f.IsArg v ∨ ∃ i, f.DefinedAt v i ∧ i < j) (hu : ∃ q, j ≤ q ∧ f.UsedAt v q) :
    f.LiveAt v j := by
  rcases hb with ha | ⟨i, hi, hl⟩
  · exact Or.inl ⟨ha, Or.inr hu⟩
  · exact Or.inr ⟨i, hi, by omega, Or.inr hu⟩

section
variable {f : Func} {offs : List Int} {k : Kernels} {impl : Nat → Impl}

theorem result_raw {j i n : Nat} (hj : j < f.ops.length) (hi : (f.op j).resultSizes[i]? = some n) :
    f.DefinedAt (f.result0 j + i) j ∧ f.raw (f.result0 j + i) = n ∧
      (((f.op j).isConst || (f.op j).isTerm) = false → f.Arena (f.result0 j + i)) := by
  obtain ⟨hlt, hn⟩ := List.getElem?_eq_some_iff.1 hi
  have hd : f.DefinedAt (f.result0 j + i) j := (definedAt_iff f _ j).2 ⟨hj, i, hlt, rfl⟩
  refine ⟨hd, ?_, fun h => ?_⟩
  · simp only [Func.raw]
    rw [decl_result f hj hlt, ← hn]
  · have h2 := definedAt_isConst f hd
    rw [h] at h2
    exact ⟨decl_const_oob f h2, h2⟩

theorem scratch_def {v : Nat} (h : isScratch f impl v = true) : ∃ j, f.DefinedAt v j ∧ impl j = .skip := by
  unfold isScratch at h
  unfold Func.DefinedAt
  cases hd : (f.decl v).defPos with
  | none => rw [hd] at h; cases h
  | some j =>
    rw [hd] at h
    refine ⟨j, rfl, ?_⟩
    dsimp only at h
    cases hi : impl j with
    | skip => rfl
    | whole => rw [hi] at h; cases h
    | blocks _ => rw [hi] at h; cases h
    | threads _ _ _ => rw [hi] at h; cases h

theorem not_scratch_of {v j : Nat} (hd : f.DefinedAt v j) (h : impl j ≠ .skip) : isScratch f impl v = false := by
  cases hs : isScratch f impl v with
  | false => rfl
  | true =>
    obtain ⟨j', h1, h2⟩ := scratch_def hs
    rw [definedAt_unique f hd h1] at h
    exact absurd h2 h

/-- The scratch tensor of a threaded operator overlaps nothing that is live while it runs. -/
theorem scratch_disjoint (ip : f.InPlaceOK) (hsep : Separates f offs) (ok : ImplOK f k impl) {j sv B : Nat} {ps : List (List Step)} (hj : j < f.ops.length)
    (hi : impl j = .threads (some sv) B ps) (wf : f.WF) {v : Nat} (hv : f.Arena v) (hl : f.LiveAt v j) (hne : v ≠ sv) :
    RangesDisjoint (offsetOf offs sv) (f.raw sv) (offsetOf offs v) (f.raw v) := by
  have hroom := ok.scratchRoom j (some sv) B ps hj hi
  obtain ⟨h1, h2, h3, _⟩ := hroom
  have hu : f.UsedAt sv j := ⟨hj, h1⟩
  have hsA : f.Arena sv := ⟨decl_const_oob f h3, h3⟩
  have hsl : f.LiveAt sv j := live_before (wf.dominated j sv hu) ⟨j, le_refl _, hu⟩
  have hnow : ¬ (impl j = .whole ∨ ∃ ps, impl j = .blocks ps) := by rw [hi]; rintro (h | ⟨_, h⟩) <;> cases h
  apply hsep sv v j hsA hv (Ne.symm hne) hsl hl
  · intro hc
    obtain ⟨j', _, ho, hq⟩ := chain_first hc
    have hjj := hq j hu
    subst hjj
    exact hnow (ok.notInPlace j hj ho)
  · intro hc
    obtain ⟨j', hj', ho, he⟩ := chain_last hc
    obtain ⟨j'', hd, hskip⟩ := scratch_def h2
    have hw := ok.notInPlace j' hj' ho
    have hd' := result0_definedAt f hj' (ip.proper j' hj' ho).2.2
    rw [← he] at hd'
    rw [definedAt_unique f hd hd'] at hskip
    rw [hskip] at hw
    rcases hw with h | ⟨_, h⟩ <;> cases h

/-- The results of a threaded operator overlap nothing that is live while it runs. -/
theorem result_disjoint (wf : f.WF) (ip : f.InPlaceOK) (hsep : Separates f offs) {j r v : Nat} (hno : (f.op j).overlappable = false)
    (hd : f.DefinedAt r j) (hr : f.Arena r) (hv : f.Arena v) (hl : f.LiveAt v j) (hb : f.IsArg v ∨ ∃ i, f.DefinedAt v i ∧ i ≤ j)
    (hne : v ≠ r) : RangesDisjoint (offsetOf offs v) (f.raw v) (offsetOf offs r) (f.raw r) := by
  apply hsep v r j hv hr hne hl (Or.inr ⟨j, hd, le_refl _, Or.inl rfl⟩)
  · intro hc
    obtain ⟨j', hj', ho, he⟩ := chain_last hc
    have hd' := result0_definedAt f hj' (ip.proper j' hj' ho).2.2
    rw [← he] at hd'
    rw [definedAt_unique f hd hd', ho] at hno
    cases hno
  · intro hc
    obtain ⟨j', h1, _, h3⟩ := chain_before wf ip hc
    have hlt : j < j' := by
      rcases h3 with h | ⟨i, hi, hl⟩
      · exact absurd h (definedAt_not_arg f hd)
      · rw [definedAt_unique f hd hi]; exact hl
    rcases hb with ha | ⟨i, hi, hle⟩
    · exact definedAt_not_arg f h1 ha
    · have := definedAt_unique f hi h1; omega

theorem arenaOperand_setByte (c : Env) (m : Mem) (v : Nat) (a : Int) (b : Byte)
    (h : (f.decl v).isConst = false → a < offsetOf offs v ∨ offsetOf offs v + f.raw v ≤ a) :
    arenaOperand f offs (setByte m a b) c v = arenaOperand f offs m c v := by
  unfold arenaOperand
  cases hc : (f.decl v).isConst with
  | true => rfl
  | false => exact read_setByte_out _ _ _ _ _ (h hc)

/-- The layout of one threaded operator. -/
theorem layout_of (wf : f.WF) (ip : f.InPlaceOK) (hsep : Separates f offs) (ok : ImplOK f k impl) {j B : Nat} {sc : Option Nat}
    {ps : List (List Step)} (hj : j < f.ops.length) (hnc : ((f.op j).isConst || (f.op j).isTerm) = false)
    (hi : impl j = .threads sc B ps) (c : Env) :
    Layout (arenaIns f impl offs c (f.op j)) B ps.length ((sc.map (offsetOf offs)).getD 0) (fun i => offsetOf offs (f.result0 j + i))
      (f.op j).resultSizes := by
  have hno : (f.op j).overlappable = false := by
    cases h : (f.op j).overlappable with
    | false => rfl
    | true => have := ok.notInPlace j hj h; rw [hi] at this; rcases this with h | ⟨_, h⟩ <;> cases h
  have hroom := ok.scratchRoom j sc B ps hj hi
  constructor
  · intro i i' n n' h1 h2 hne
    obtain ⟨d1, r1, a1⟩ := result_raw hj h1
    obtain ⟨d2, r2, a2⟩ := result_raw hj h2
    have := result_disjoint wf ip hsep hno d2 (a2 hnc) (a1 hnc) (Or.inr ⟨j, d1, le_refl _, Or.inl rfl⟩) (Or.inr ⟨j, d1, le_refl _⟩)
      (by omega)
    rw [r1, r2] at this
    exact this
  · intro i n h1
    obtain ⟨d1, r1, a1⟩ := result_raw hj h1
    cases sc with
    | none =>
      have hB : B = 0 := hroom
      exact Or.inl hB
    | some sv =>
      obtain ⟨g1, g2, g3, g4⟩ := hroom
      have hne : f.result0 j + i ≠ sv := by
        rintro rfl
        obtain ⟨j', e1, e2⟩ := scratch_def g2
        rw [definedAt_unique f e1 d1, hi] at e2
        cases e2
      have := scratch_disjoint ip hsep ok hj hi wf (a1 hnc) (Or.inr ⟨j, d1, le_refl _, Or.inl rfl⟩) hne
      rw [r1] at this
      simp only [Option.map_some, Option.getD_some]
      right
      unfold RangesDisjoint at *
      omega
  · intro m a b ha
    unfold arenaIns
    apply List.map_congr_left
    intro v hv
    unfold dataOperands at hv
    rw [List.mem_filter] at hv
    obtain ⟨hv, hscr⟩ := hv
    have hscr : isScratch f impl v = false := by simpa using hscr
    have hu : f.UsedAt v j := ⟨hj, hv⟩
    have hb := wf.dominated j v hu
    have hl : f.LiveAt v j := live_before hb ⟨j, le_refl _, hu⟩
    apply arenaOperand_setByte
    intro hc
    have hvA : f.Arena v := ⟨decl_const_oob f hc, hc⟩
    rcases ha with ha | ⟨i, n, h1, h2, h3⟩
    · cases sc with
      | none =>
        have hB : B = 0 := hroom
        subst hB
        simp only [Nat.zero_mul] at ha
        omega
      | some sv =>
        obtain ⟨g1, g2, g3, g4⟩ := hroom
        have hne : v ≠ sv := by rintro rfl; rw [hscr] at g2; cases g2
        have := scratch_disjoint ip hsep ok hj hi wf hvA hl hne
        simp only [Option.map_some, Option.getD_some] at ha
        unfold RangesDisjoint at this
        omega
    · obtain ⟨d1, r1, a1⟩ := result_raw hj h1
      have hne : v ≠ f.result0 j + i := by
        rintro rfl
        rcases hb with h | ⟨i', h, hlt⟩
        · exact definedAt_not_arg f d1 h
        · have := definedAt_unique f d1 h; omega
      have := result_disjoint wf ip hsep hno d1 (a1 hnc) hvA hl
        (hb.imp id (fun ⟨i, x, y⟩ => ⟨i, x, by omega⟩)) hne
      rw [r1] at this
      unfold RangesDisjoint at this
      omega

/-- From one operator to the next. -/
theorem sim_next {j : Nat} (hj : j < f.ops.length) (hnc : ((f.op j).isConst || (f.op j).isTerm) = false) {m m' : Mem} {c e : Env}
    {outs : List (List Byte)} (hlen : outs.map List.length = (f.op j).resultSizes) (h : Sim f impl offs j m c e)
    (hA : ∀ v, f.Arena v → isScratch f impl v = false → (f.IsArg v ∨ ∃ i, f.DefinedAt v i ∧ i < j) → (∃ q, j + 1 ≤ q ∧ f.UsedAt v q) →
      m'.read (offsetOf offs v) (f.raw v) = m.read (offsetOf offs v) (f.raw v))
    (hB : impl j ≠ .skip → ∀ (i : Nat) (out : List Byte), outs[i]? = some out → m'.read (offsetOf offs (f.result0 j + i)) out.length = out) :
    Sim f impl offs (j + 1) m' c (e.setFrom (f.result0 j) outs) := by
  intro v hscr hd hu
  have hout : (f.IsArg v ∨ ∃ i, f.DefinedAt v i ∧ i < j) → v < f.result0 j := by
    rintro (ha | ⟨i, hi, hl⟩)
    · rw [result0_eq]; unfold Func.IsArg at ha; omega
    · obtain ⟨hil, i', hi', rfl⟩ := (definedAt_iff f v i).1 hi
      have h1 := result0_mono f (i := i + 1) (j := j) (by omega) (by omega)
      have h2 := resCount_take_succ f hil
      omega
  have hold : (f.IsArg v ∨ ∃ i, f.DefinedAt v i ∧ i < j) →
      arenaOperand f offs m' c v = e.setFrom (f.result0 j) outs v := by
    intro hb
    rw [Env.setFrom_other _ _ _ _ (Or.inl (hout hb)), ← h v hscr hb (by obtain ⟨q, hq, hq'⟩ := hu; exact ⟨q, by omega, hq'⟩)]
    unfold arenaOperand
    cases hc : (f.decl v).isConst with
    | true => rfl
    | false => exact hA v ⟨decl_const_oob f hc, hc⟩ hscr hb hu
  rcases hd with ha | ⟨i, hi, hl⟩
  · exact hold (Or.inl ha)
  · by_cases hij : i < j
    · exact hold (Or.inr ⟨i, hi, hij⟩)
    · have : i = j := by omega
      subst this
      obtain ⟨_, i', hi', rfl⟩ := (definedAt_iff f v i).1 hi
      have hi'' : i' < outs.length := by
        have := congrArg List.length hlen
        rw [List.length_map] at this; omega
      obtain ⟨_, r1, a1⟩ := result_raw hj (List.getElem?_eq_getElem hi')
      have hskip : impl i ≠ .skip := by
        intro hs
        have : isScratch f impl (f.result0 i + i') = true := by
          unfold isScratch
          unfold Func.DefinedAt at hi
          rw [hi]; dsimp only; rw [hs]
        rw [this] at hscr; cases hscr
      have hb := hB hskip i' _ (List.getElem?_eq_getElem hi'')
      obtain ⟨_, h2⟩ := fit_getElem hlen i' hi''
      unfold arenaOperand
      rw [(a1 hnc).2]
      simp only [Bool.false_eq_true, if_false]
      rw [Env.setFrom_same _ _ _ _ hi'', r1, ← h2]
      exact hb

theorem before_result0 {v j : Nat} (hj : j < f.ops.length) (hb : f.IsArg v ∨ ∃ i, f.DefinedAt v i ∧ i < j) : v < f.result0 j := by
  rcases hb with ha | ⟨i, hi, hl⟩
  · rw [result0_eq]; unfold Func.IsArg at ha; omega
  · obtain ⟨hil, i', hi', rfl⟩ := (definedAt_iff f v i).1 hi
    have h1 := result0_mono f (i := i + 1) (j := j) (by omega) (by omega)
    have h2 := resCount_take_succ f hil
    omega

theorem drop_cons {o : Op} {os : List Op} {j : Nat} (hos : o :: os = f.ops.drop j) :
    j < f.ops.length ∧ o = f.op j ∧ os = f.ops.drop (j + 1) := by
  have hj : j < f.ops.length := by
    by_contra hge
    rw [List.drop_eq_nil_of_le (by omega)] at hos
    simp at hos
  rw [List.drop_eq_getElem_cons hj] at hos
  injection hos with h1 h2
  exact ⟨hj, by rw [op_eq f hj, h1], h2⟩

theorem ins_eq (wf : f.WF) {j : Nat} (hj : j < f.ops.length) {m : Mem} {c e : Env} (h : Sim f impl offs j m c e) :
    arenaIns f impl offs c (f.op j) m = (dataOperands (isScratch f impl) (f.op j)).map e := by
  unfold arenaIns
  apply List.map_congr_left
  intro v hv
  unfold dataOperands at hv
  rw [List.mem_filter] at hv
  have hu : f.UsedAt v j := ⟨hj, hv.1⟩
  exact h v (by simpa using hv.2) (wf.dominated j v hu) ⟨j, le_refl _, hu⟩

theorem run_sim (wf : f.WF) (ip : f.InPlaceOK) (hsep : Separates f offs) (pv : PlanValid f offs) (hsame : SamePlace f offs)
    (hk : Kernels.Fit f k) (ok : ImplOK f k impl)
    {os : List Op} {j : Nat} {m : Mem} {c : Env} {tr : List (List (List Byte))} (hrun : Run f k impl offs os j m c tr)
    (hos : os = f.ops.drop j) (e : Env) (h : Sim f impl offs j m c e) :
    tr = refRun f k (isScratch f impl) os j e := by
  induction hrun generalizing e with
  | nil => rfl
  | @const o os j m c tr hc _ ih =>
    obtain ⟨hj, ho, hrest⟩ := drop_cons hos
    subst ho
    have hins := ins_eq wf hj h
    have hlen := hk j ((dataOperands (isScratch f impl) (f.op j)).map e) hj
    simp only [refRun]
    rw [hins] at ih ⊢
    congr 1
    apply ih hrest
    intro v hscr hd hu
    have hout := before_result0 (f := f) (v := v) (j := j) hj
    have hold : (f.IsArg v ∨ ∃ i, f.DefinedAt v i ∧ i < j) →
        arenaOperand f offs m (c.setFrom (f.result0 j) (k j ((dataOperands (isScratch f impl) (f.op j)).map e))) v =
          e.setFrom (f.result0 j) (k j ((dataOperands (isScratch f impl) (f.op j)).map e)) v := by
      intro hb
      rw [Env.setFrom_other _ _ _ _ (Or.inl (hout hb)), ← h v hscr hb (by obtain ⟨q, hq, hq'⟩ := hu; exact ⟨q, by omega, hq'⟩)]
      unfold arenaOperand
      rw [Env.setFrom_other _ _ _ _ (Or.inl (hout hb))]
    rcases hd with ha | ⟨i, hi, hl⟩
    · exact hold (Or.inl ha)
    · by_cases hij : i < j
      · exact hold (Or.inr ⟨i, hi, hij⟩)
      · have : i = j := by omega
        subst this
        have hcst := definedAt_isConst f hi
        rw [hc] at hcst
        obtain ⟨_, i', hi', rfl⟩ := (definedAt_iff f v i).1 hi
        have hi'' : i' < (k i ((dataOperands (isScratch f impl) (f.op i)).map e)).length := by
          have := congrArg List.length hlen
          rw [List.length_map] at this; omega
        unfold arenaOperand
        rw [hcst, if_pos rfl, Env.setFrom_same _ _ _ _ hi'', Env.setFrom_same _ _ _ _ hi'']
  | @skip o os j m c tr hc hs _ ih =>
    obtain ⟨hj, ho, hrest⟩ := drop_cons hos
    subst ho
    have hins := ins_eq wf hj h
    simp only [refRun]
    rw [hins]
    congr 1
    apply ih hrest
    exact sim_next hj hc (hk j _ hj) h (fun _ _ _ _ _ => rfl) (fun h => absurd hs h)
  | @whole o os j m c tr hc hs _ ih =>
    obtain ⟨hj, ho, hrest⟩ := drop_cons hos
    subst ho
    have hins := ins_eq wf hj h
    have hlen := hk j ((dataOperands (isScratch f impl) (f.op j)).map e) hj
    simp only [refRun]
    rw [hins] at ih ⊢
    congr 1
    apply ih hrest
    have hres : ∀ i, ∀ hi : i < (k j ((dataOperands (isScratch f impl) (f.op j)).map e)).length,
        f.DefinedAt (f.result0 j + i) j ∧ f.raw (f.result0 j + i) = ((k j ((dataOperands (isScratch f impl) (f.op j)).map e))[i]).length ∧
          f.Arena (f.result0 j + i) := by
      intro i hi
      obtain ⟨h1, h2⟩ := fit_getElem hlen i hi
      obtain ⟨a1, a2, a3⟩ := result_raw hj (List.getElem?_eq_getElem h1)
      exact ⟨a1, by rw [a2, h2], a3 hc⟩
    apply sim_next hj hc hlen h
    · intro v hv _ hb hu
      apply writeResults_disjoint
      intro i hi
      obtain ⟨a1, a2, a3⟩ := hres i hi
      rw [← a2]
      have hlt := before_result0 (f := f) hj hb
      apply pv.results v _ j hv a3 (by omega) a1
      right
      obtain ⟨q, hq, hq'⟩ := hu
      exact ⟨hb, q, by omega, hq'⟩
    · intro _ i out hi
      obtain ⟨hlt, rfl⟩ := List.getElem?_eq_some_iff.1 hi
      apply writeResults_same
      intro a b ha hb hab
      obtain ⟨a1, a2, a3⟩ := hres a ha
      obtain ⟨b1, b2, b3⟩ := hres b hb
      rw [← a2, ← b2]
      exact pv.results _ _ j a3 b3 (by omega) b1 (Or.inl a1)
  | @blocks o os j m c tr ps s hc hi hs _ ih =>
    obtain ⟨hj, ho, hrest⟩ := drop_cons hos
    subst ho
    have hins := ins_eq wf hj h
    obtain ⟨vs, hvs⟩ : ∃ vs, vs = dataOperands (isScratch f impl) (f.op j) := ⟨_, rfl⟩
    have hlen := hk j (vs.map e) hj
    obtain ⟨n, hn, bo⟩ := ok.blocks j ps hj hi
    rw [← hvs] at bo ih hins
    simp only [refRun]
    rw [hins, ← hvs]
    congr 1
    apply ih hrest
    have hn0 : (f.op j).resultSizes[0]? = some n := by rw [hn]; rfl
    obtain ⟨d1, r1, a1⟩ := result_raw hj hn0
    rw [Nat.add_zero] at d1 r1 a1
    have hrA := a1 hc
    -- every data operand, as the reference has it
    have hval : ∀ v ∈ vs, f.UsedAt v j ∧ (f.IsArg v ∨ ∃ i, f.DefinedAt v i ∧ i < j) ∧ arenaOperand f offs m c v = e v := by
      intro v hv
      rw [hvs] at hv
      unfold dataOperands at hv
      rw [List.mem_filter] at hv
      have hu : f.UsedAt v j := ⟨hj, hv.1⟩
      have hb := wf.dominated j v hu
      exact ⟨hu, hb, h v (by simpa using hv.2) hb ⟨j, le_refl _, hu⟩⟩
    have hread : ∀ v ∈ vs, (f.decl v).isConst = false → e v = m.read (offsetOf offs v) n := by
      intro v hv hcv
      rw [← (hval v hv).2.2]
      unfold arenaOperand
      rw [hcv, if_neg (by decide), bo.sizes v hv hcv]
    have hce : ∀ v ∈ vs, (f.decl v).isConst = true → c v = e v := by
      intro v hv hcv
      rw [← (hval v hv).2.2]
      unfold arenaOperand
      rw [hcv, if_pos rfl]
    obtain ⟨out, ho1, ho2⟩ := bo.law e (fun v hv hcv => by rw [hread v hv hcv, read_length])
    have houtlen : out.length = n := by
      rw [ho1, hn] at hlen
      simpa using hlen
    have hloc : ∀ v ∈ vs, (f.decl v).isConst = false →
        offsetOf offs v = offsetOf offs (f.result0 j) ∨ RangesDisjoint (offsetOf offs v) n (offsetOf offs (f.result0 j)) n := by
      intro v hv hcv
      obtain ⟨hu, hb, _⟩ := hval v hv
      have hvA : f.Arena v := ⟨decl_const_oob f hcv, hcv⟩
      have hne : v ≠ f.result0 j := by
        have := before_result0 (f := f) hj hb; omega
      have hraw := bo.sizes v hv hcv
      by_cases hch : f.InPlaceChain v (f.result0 j)
      · have := hsame v _ hvA (chain_step wf ip hch hu d1) (by rw [hraw, r1])
        rw [hraw, r1] at this
        exact this
      · right
        have := hsep v (f.result0 j) j hvA hrA hne (live_before hb ⟨j, le_refl _, hu⟩) (Or.inr ⟨j, d1, le_refl _, Or.inl rfl⟩) hch (by
          intro hcc
          obtain ⟨j', h1, _, h3⟩ := chain_before wf ip hcc
          have hlt : j < j' := by
            rcases h3 with h | ⟨i, hi, hl⟩
            · exact absurd h (definedAt_not_arg f d1)
            · rw [definedAt_unique f d1 hi]; exact hl
          rcases hb with ha | ⟨i, hi, hle⟩
          · exact definedAt_not_arg f h1 ha
          · have := definedAt_unique f hi h1; omega)
        rw [hraw, r1] at this
        exact this
    have hperm := interleaving_perm hs
    have hfold : runBlocks f offs c vs (f.result0 j) s m =
        (s.map Prod.snd).foldl (fun m st => st.exec f offs c vs (f.result0 j) m) m := by
      unfold runBlocks
      rw [List.foldl_map]
    obtain ⟨b1, b2⟩ := blocks_run f offs c vs (f.result0 j) n e out houtlen hloc hce (s.map Prod.snd)
      (fun st hst => bo.inside st (hperm.mem_iff.1 hst))
      ((hperm.pairwise_iff (fun {a b} h => h.symm)).2 bo.disjoint)
      (fun st hst => ho2 st (hperm.mem_iff.1 hst)) m
      (by
        intro st hst v hv hcv
        rw [hread v hv hcv, slice_read _ _ _ _ _ (bo.inside st (hperm.mem_iff.1 hst))])
    rw [hfold]
    apply sim_next hj hc hlen h
    · intro v hv _ hb hu
      apply Mem.read_congr
      intro a h1 h2
      apply b2
      intro st hst
      have h3 := bo.inside st (hperm.mem_iff.1 hst)
      have h4 := pv.results v (f.result0 j) j hv hrA (by have := before_result0 (f := f) hj hb; omega) d1 (by
        right
        obtain ⟨q, hq, hq'⟩ := hu
        exact ⟨hb, q, by omega, hq'⟩)
      rw [r1] at h4
      unfold RangesDisjoint at h4
      omega
    · intro _ i o' hi'
      rw [ho1] at hi'
      have hi0 : i = 0 := by
        have := (List.getElem?_eq_some_iff.1 hi').1
        simp only [List.length_singleton] at this
        omega
      subst hi0
      obtain rfl : out = o' := by simpa using hi'
      rw [Nat.add_zero]
      apply read_eq_of
      intro p b hp
      have hpl : p < n := by rw [← houtlen]; exact (List.getElem?_eq_some_iff.1 hp).1
      obtain ⟨st, hst, hlo, hhi⟩ := bo.cover p hpl
      have := congrArg (fun l : List Byte => l[p - st.lo]?) (b1 st (hperm.mem_iff.2 hst))
      rw [read_getElem _ _ _ _ (by omega), slice_getElem _ _ _ _ (by omega), show st.lo + (p - st.lo) = p by omega, hp] at this
      have h5 := Option.some.inj this
      have h6 : offsetOf offs (f.result0 j) + (p : Int) = offsetOf offs (f.result0 j) + (st.lo : Int) + ((p - st.lo : Nat) : Int) := by
        omega
      rw [← h5, h6]
  | @threads o os j m c tr sc B ps s hc hi hs _ ih =>
    obtain ⟨hj, ho, hrest⟩ := drop_cons hos
    subst ho
    have hins := ins_eq wf hj h
    have hlen := hk j ((dataOperands (isScratch f impl) (f.op j)).map e) hj
    have L := layout_of wf ip hsep ok hj hc hi c
    have hcorr := ok.correct j sc B ps hj hi
    have hno : (f.op j).overlappable = false := by
      cases h : (f.op j).overlappable with
      | false => rfl
      | true => have := ok.notInPlace j hj h; rw [hi] at this; rcases this with h | ⟨_, h⟩ <;> cases h
    have hsteps : ∀ ta ∈ s, ta.1 < ps.length ∧ ta.2.Inside B (f.op j).resultSizes := by
      intro ta hta
      obtain ⟨h1, q, hq, h2⟩ := Threads.interleaving_mem hs ta hta
      exact ⟨h1, hcorr.1 q hq _ h2⟩
    simp only [refRun]
    rw [hins]
    congr 1
    apply ih hrest
    apply sim_next hj hc hlen h
    · intro v hv hscr hb hu
      have hl : f.LiveAt v j := live_before hb (by obtain ⟨q, hq, hq'⟩ := hu; exact ⟨q, by omega, hq'⟩)
      apply Mem.read_congr
      intro a h1 h2
      apply run_frame s hsteps
      · cases sc with
        | none =>
          have hB : B = 0 := ok.scratchRoom j none B ps hj hi
          subst hB
          simp only [Nat.zero_mul]
          omega
        | some sv =>
          obtain ⟨g1, g2, g3, g4⟩ := ok.scratchRoom j (some sv) B ps hj hi
          have hne : v ≠ sv := by rintro rfl; rw [hscr] at g2; cases g2
          have := scratch_disjoint ip hsep ok hj hi wf hv hl hne
          simp only [Option.map_some, Option.getD_some]
          unfold RangesDisjoint at this
          omega
      · intro i n hin
        obtain ⟨d1, r1, a1⟩ := result_raw hj hin
        have hlt := before_result0 (f := f) hj hb
        have := result_disjoint wf ip hsep hno d1 (a1 hc) hv hl (hb.imp id (fun ⟨i, x, y⟩ => ⟨i, x, by omega⟩)) (by omega)
        rw [r1] at this
        unfold RangesDisjoint at this
        omega
    · intro _ i out hout
      apply read_eq_of
      intro p b hb
      obtain ⟨t, q, hq, hother, hval⟩ := hcorr.2 _ i out p b (by rw [List.length_map]) hout hb
      obtain ⟨hilt, hie⟩ := List.getElem?_eq_some_iff.1 hout
      obtain ⟨h1, h2⟩ := fit_getElem hlen i hilt
      have hp := (List.getElem?_eq_some_iff.1 hb).1
      have := schedule_solo L hs rfl hcorr.1 t q hq i _ p (List.getElem?_eq_getElem h1) (by rw [← h2, hie]; exact hp) hother m
      rw [this, hins]
      exact hval _ _ (read_length _ _ _)

end

end Verif.MemPlan.Conc
