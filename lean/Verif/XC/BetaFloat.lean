/-!
# C121: the float operators behind `--xcore-enable-beta-float`

With the option, patterns of ConvPatterns.td and XCPatterns.td replace float layers by "beta" operators that carry only some of a layer's data: the
custom options hold the kind of an activation and nothing else (TranslateToCustomOp.cpp 35-46). What the kernels of these operators compute is not in
/repo, so the question that can be asked is whether there is any kernel at all that computes, from what it is given, what the layer did.

Arithmetic is a parameter: the theorems that say yes hold for every arithmetic, the witnesses that say no are in exact integers.
-/

namespace Verif.XC.BetaFloat

/-- `fused_activation_function`. -/
inductive Act | none | relu | reluN1 | relu6
  deriving DecidableEq

inductive Fn | elu | logistic | tanh
  deriving DecidableEq

inductive Pad | same | valid
  deriving DecidableEq

/-- The arithmetic of the layers. -/
structure Arith (R : Type) where
  zero : R
  add : R → R → R
  mul : R → R → R
  act : Act → R → R
  fn : Fn → R → R

structure T (R : Type) where
  shape : List Nat
  val : List Nat → R

/-- The float layers the patterns look at. Convolutions have inputs `[B, H, W, C]` and filters `[O, K, L, C]`; a fully connected layer is given for
inputs of rank 2, for which `keep_num_dims` makes no difference. -/
inductive Layer (R : Type)
  | conv (x f b : T R) (dh dw : Nat) (act : Act) (pad : Pad) (sh sw : Nat)
  | tconv (x f b : T R) (out : List Nat) (pad : Pad) (sh sw : Nat) (act : Act)
  | fc (x f : T R) (b : Option (T R)) (act : Act)
  | unary (g : Fn) (x : T R)
  | concat (xs : List (T R)) (axis : Nat) (act : Act)

/-! ## Specification: what the layers compute (TensorFlow Lite) -/

def dim {R : Type} (t : T R) (i : Nat) : Nat := t.shape.getD i 0

/-- Extent of a filter of `k` taps with dilation `d`. -/
def extent (k d : Nat) : Nat := (k - 1) * d + 1

/-- Output size of a convolution. -/
def outSize (p : Pad) (n k d s : Nat) : Nat :=
  match p with
  | .valid => if extent k d ≤ n then (n - extent k d) / s + 1 else 0
  | .same => (n + s - 1) / s

/-- Padding before the input. -/
def before (p : Pad) (n k d s : Nat) : Nat :=
  match p with
  | .valid => 0
  | .same => ((outSize .same n k d s - 1) * s + extent k d - n) / 2

variable {R : Type} (a : Arith R)

def sum (l : List R) : R := l.foldl a.add a.zero

def outShape : Layer R → List Nat
  | .conv x f _ dh dw _ p sh sw => [dim x 0, outSize p (dim x 1) (dim f 1) dh sh, outSize p (dim x 2) (dim f 2) dw sw, dim f 0]
  | .tconv _ _ _ out _ _ _ _ => out
  | .fc x f _ _ => [dim x 0, dim f 0]
  | .unary _ x => x.shape
  | .concat xs axis _ => (xs.headD ⟨[], fun _ => a.zero⟩).shape.set axis ((xs.map fun t => dim t axis).sum)

/-- The tensor of a concatenation at an index: the inputs are passed one after the other along the axis. -/
def pick (axis : Nat) : List (T R) → List Nat → R
  | [], _ => a.zero
  | t :: ts, i => if i.getD axis 0 < dim t axis then t.val i else pick axis ts (i.set axis (i.getD axis 0 - dim t axis))

def meaning (l : Layer R) : T R :=
  ⟨outShape a l, match l with
    | .conv x f b dh dw act p sh sw => fun i =>
      let top := before p (dim x 1) (dim f 1) dh sh
      let left := before p (dim x 2) (dim f 2) dw sw
      a.act act (a.add (b.val [i.getD 3 0]) (sum a ((List.range (dim f 1)).flatMap fun u => (List.range (dim f 2)).flatMap fun v =>
        (List.range (dim f 3)).map fun c =>
          let y := i.getD 1 0 * sh + u * dh
          let z := i.getD 2 0 * sw + v * dw
          if top ≤ y ∧ y - top < dim x 1 ∧ left ≤ z ∧ z - left < dim x 2 then
            a.mul (f.val [i.getD 3 0, u, v, c]) (x.val [i.getD 0 0, y - top, z - left, c])
          else a.zero)))
    | .tconv x f b out p sh sw act => fun i =>
      let top := match p with | .valid => 0 | .same => ((dim x 1 - 1) * sh + dim f 1 - out.getD 1 0) / 2
      let left := match p with | .valid => 0 | .same => ((dim x 2 - 1) * sw + dim f 2 - out.getD 2 0) / 2
      a.act act (a.add (b.val [i.getD 3 0]) (sum a ((List.range (dim x 1)).flatMap fun y => (List.range (dim x 2)).flatMap fun z =>
        (List.range (dim f 1)).flatMap fun u => (List.range (dim f 2)).flatMap fun v => (List.range (dim f 3)).map fun c =>
          if y * sh + u = i.getD 1 0 + top ∧ z * sw + v = i.getD 2 0 + left then
            a.mul (f.val [i.getD 3 0, u, v, c]) (x.val [i.getD 0 0, y, z, c])
          else a.zero)))
    | .fc x f b act => fun i =>
      a.act act (a.add ((b.map fun b => b.val [i.getD 1 0]).getD a.zero)
        (sum a ((List.range (dim f 1)).map fun j => a.mul (f.val [i.getD 1 0, j]) (x.val [i.getD 0 0, j]))))
    | .unary g x => fun i => a.fn g (x.val i)
    | .concat xs axis act => fun i => a.act act (pick a axis xs i)⟩

/-! ## The code -/

/-- What a kernel is given: the operator's name, its operands, its custom options and the shape of its result. -/
structure Custom (R : Type) where
  name : String
  ins : List (T R)
  options : Option Nat
  out : List Nat

/-- `Hasfw5fh2` (ConvPatterns.td 56-59). -/
def hasfw5fh2 (f : T R) : Bool := f.shape.length == 4 && dim f 1 == 3 && dim f 2 == 2

/-- `getActivationType` (ApplyXCPatterns.cpp 67-78). -/
def activationType : Fn → Nat
  | .elu => 0
  | .logistic => 1
  | .tanh => 2

/-- The patterns of ConvPatterns.td 61-76 and XCPatterns.td 76-81, 95-96 on float layers, the operators of XCoreOps.td 261-320 and their custom options
(TranslateToCustomOp.cpp 35-46); `enabled` is `isBetaFloatEnabled` (ApplyXCPatterns.cpp 40, ReplaceConv2D.cpp 266). -/
def beta (enabled : Bool) (l : Layer R) : Option (Custom R) :=
  match l with
  | .conv x f b _ _ _ _ sh sw =>
    if sh = 2 ∧ sw = 1 ∧ hasfw5fh2 f ∧ enabled then some ⟨"XC_beta_convf32", [x, f, b], none, outShape a l⟩ else none
  | .tconv x f b _ _ sh sw _ =>
    if sh = 2 ∧ sw = 1 ∧ hasfw5fh2 f ∧ enabled then some ⟨"XC_beta_transposeconvf32", [x, f, b], none, outShape a l⟩ else none
  | .fc x f _ _ => if enabled then some ⟨"XC_beta_fcf32", [x, f], none, outShape a l⟩ else none
  | .unary g x => if enabled then some ⟨"XC_beta_activationf32", [x], some (activationType g), outShape a l⟩ else none
  | .concat xs _ _ => if enabled then some ⟨"XC_beta_concatf32", xs, none, outShape a l⟩ else none

/-- There is a kernel that computes every layer satisfying `P` from what its replacement gives it. -/
def Computable (P : Layer R → Prop) : Prop :=
  ∃ kernel : Custom R → T R, ∀ l c, P l → beta a true l = some c → kernel c = meaning a l

/-- The layers whose meaning survives: no fused activation, no bias in a fully connected layer; convolutions that are VALID with a non-empty output,
or SAME without dilation; transposed convolutions with the output shape that padding and strides give; concatenations of at least two non-empty
tensors along an axis they have. -/
def Plain : Layer R → Prop
  | .conv x _ _ dh dw act p _ _ => act = .none ∧ 0 < dim x 2 ∧ 0 < dh ∧ 0 < dw ∧
    (p = .same → dh = 1 ∧ dw = 1) ∧ (p = .valid → 2 * dh + 1 ≤ dim x 1 ∧ dw + 1 ≤ dim x 2)
  | .tconv x f _ out p _ _ act => act = .none ∧
    out = match p with
      | .same => [dim x 0, 2 * dim x 1, dim x 2, dim f 0]
      | .valid => [dim x 0, 2 * dim x 1 + 1, dim x 2 + 1, dim f 0]
  | .fc _ _ b act => act = .none ∧ b = none
  | .unary _ _ => True
  | .concat xs axis act => act = .none ∧ 2 ≤ xs.length ∧ ∀ t ∈ xs, axis < t.shape.length ∧ ∀ d ∈ t.shape, 0 < d

/-! ## Proofs -/

theorem computable_iff (P : Layer R → Prop) :
    Computable a P ↔ ∀ l l' c, P l → P l' → beta a true l = some c → beta a true l' = some c → meaning a l = meaning a l' := by
  constructor
  · rintro ⟨k, hk⟩ l l' c hl hl' h h'
    rw [← hk l c hl h, hk l' c hl' h']
  · intro h
    refine ⟨fun c => open Classical in if e : ∃ l, P l ∧ beta a true l = some c then meaning a e.choose else ⟨[], fun _ => a.zero⟩, fun l c hl hb => ?_⟩
    have e : ∃ l, P l ∧ beta a true l = some c := ⟨l, hl, hb⟩
    simp only [e, dif_pos]
    exact h _ _ c e.choose_spec.1 hl e.choose_spec.2 hb

theorem outSize_valid {n k d s : Nat} (h : extent k d ≤ n) : outSize .valid n k d s = (n - extent k d) / s + 1 := by
  simp only [outSize, h, if_true]

theorem extent3 (d : Nat) : extent 3 d = 2 * d + 1 := rfl
theorem extent2 (d : Nat) : extent 2 d = d + 1 := by simp [extent]

theorem sum_two_le (axis : Nat) : ∀ (t u : T R) (xs : List (T R)), dim t axis + dim u axis ≤ (((t :: u :: xs).map fun t => dim t axis)).sum := by
  intro t u xs
  simp only [List.map_cons, List.sum_cons]
  omega

theorem axis_unique (t u : T R) (xs : List (T R)) (i j : Nat) (hi : i < t.shape.length) (hu : 0 < dim u i)
    (h : t.shape.set i (((t :: u :: xs).map fun t => dim t i).sum) = t.shape.set j (((t :: u :: xs).map fun t => dim t j).sum)) : i = j := by
  by_cases e : i = j
  · exact e
  · exfalso
    have h1 := congrArg (fun l => l[i]?) h
    simp only [List.getElem?_set, hi, Ne.symm e, if_true, if_false, List.getElem?_eq_getElem] at h1
    have h2 := sum_two_le i t u xs
    have h3 : dim t i = t.shape[i] := by simp [dim, List.getD, hi]
    simp only [Option.some.injEq] at h1
    omega

/-- **C121** (in part). One kernel can compute all the plain layers, of whatever shapes and in whatever arithmetic, from what the beta operators give
it: the kind of activation is in the options; padding, dilation and axis, which are dropped, can be read off the shapes. What is missing: layers with
a fused activation or a bias that is dropped, and dilated SAME convolutions, for which no kernel can be right
(`C121_activation_refuted`, `C121_bias_refuted`, `C121_dilation_refuted`). -/
theorem C121_plain_partial : Computable a Plain := by
  rw [computable_iff]
  intro l l' c hl hl' h h'
  cases l with
  | conv x f b dh dw act p sh sw =>
    simp only [beta] at h
    split at h
    · rename_i g
      injection h with h
      subst h
      cases l' with
      | conv x' f' b' dh' dw' act' p' sh' sw' =>
        simp only [beta] at h'
        split at h'
        · rename_i g'
          simp only [Option.some.injEq, Custom.mk.injEq, List.cons.injEq, and_true, true_and] at h'
          obtain ⟨⟨rfl, rfl, rfl⟩, ho⟩ := h'
          obtain ⟨rfl, rfl, hf, _⟩ := g
          obtain ⟨rfl, rfl, _, _⟩ := g'
          simp only [hasfw5fh2, Bool.and_eq_true, beq_iff_eq] at hf
          simp only [outShape, List.cons.injEq, and_true, true_and, hf.1.2, hf.2] at ho
          obtain ⟨rfl, hw, h0, h1, hs, hv⟩ := hl
          obtain ⟨rfl, _, h0', h1', hs', hv'⟩ := hl'
          have key : p = p' ∧ dh = dh' ∧ dw = dw' := by
            cases p <;> cases p'
            · have := hs rfl; have := hs' rfl; exact ⟨rfl, by omega, by omega⟩
            · have v := hv' rfl
              rw [outSize_valid (by rw [extent3]; omega), outSize_valid (by rw [extent2]; omega), extent2] at ho
              simp only [outSize, Nat.div_one] at ho
              omega
            · have v := hv rfl
              rw [outSize_valid (by rw [extent3]; omega), outSize_valid (by rw [extent2]; omega), extent2] at ho
              simp only [outSize, Nat.div_one] at ho
              omega
            · have v := hv rfl; have v' := hv' rfl
              have e1 : extent 3 dh ≤ dim x' 1 := by rw [extent3]; omega
              have e2 : extent 3 dh' ≤ dim x' 1 := by rw [extent3]; omega
              have e3 : extent 2 dw ≤ dim x' 2 := by rw [extent2]; omega
              have e4 : extent 2 dw' ≤ dim x' 2 := by rw [extent2]; omega
              rw [outSize_valid e1, outSize_valid e2, outSize_valid e3, outSize_valid e4] at ho
              simp only [extent3, extent2, Nat.div_one] at ho
              exact ⟨rfl, by omega, by omega⟩
          obtain ⟨rfl, rfl, rfl⟩ := key
          rfl
        · cases h'
      | tconv => simp only [beta] at h'; split at h' <;> simp at h'
      | fc => simp [beta] at h'
      | unary => simp [beta] at h'
      | concat => simp [beta] at h'
    · cases h
  | tconv x f b out p sh sw act =>
    simp only [beta] at h
    split at h
    · rename_i g
      injection h with h
      subst h
      cases l' with
      | tconv x' f' b' out' p' sh' sw' act' =>
        simp only [beta] at h'
        split at h'
        · rename_i g'
          simp only [Option.some.injEq, Custom.mk.injEq, List.cons.injEq, and_true, true_and, outShape] at h'
          obtain ⟨⟨rfl, rfl, rfl⟩, rfl⟩ := h'
          obtain ⟨rfl, rfl, _⟩ := g
          obtain ⟨rfl, rfl, _⟩ := g'
          obtain ⟨rfl, ho⟩ := hl
          obtain ⟨rfl, ho'⟩ := hl'
          have key : p = p' := by
            cases p <;> cases p' <;> simp only [] at ho ho' <;> rw [ho] at ho' <;> simp at ho' ⊢
          subst key
          rfl
        · cases h'
      | conv => simp only [beta] at h'; split at h' <;> simp at h'
      | fc => simp [beta] at h'
      | unary => simp [beta] at h'
      | concat => simp [beta] at h'
    · cases h
  | fc x f b act =>
    simp only [beta, if_true, Option.some.injEq] at h
    subst h
    cases l' with
    | fc x' f' b' act' =>
      simp only [beta, if_true, Option.some.injEq, Custom.mk.injEq, List.cons.injEq, and_true, true_and] at h'
      obtain ⟨⟨rfl, rfl⟩, _⟩ := h'
      obtain ⟨rfl, rfl⟩ := hl
      obtain ⟨rfl, rfl⟩ := hl'
      rfl
    | conv => simp only [beta] at h'; split at h' <;> simp at h'
    | tconv => simp only [beta] at h'; split at h' <;> simp at h'
    | unary => simp [beta] at h'
    | concat => simp [beta] at h'
  | unary g x =>
    simp only [beta, if_true, Option.some.injEq] at h
    subst h
    cases l' with
    | unary g' x' =>
      simp only [beta, if_true, Option.some.injEq, Custom.mk.injEq, List.cons.injEq, and_true, true_and] at h'
      obtain ⟨rfl, ht, _⟩ := h'
      have : g = g' := by cases g <;> cases g' <;> simp [activationType] at ht ⊢
      subst this
      rfl
    | conv => simp only [beta] at h'; split at h' <;> simp at h'
    | tconv => simp only [beta] at h'; split at h' <;> simp at h'
    | fc => simp [beta] at h'
    | concat => simp [beta] at h'
  | concat xs axis act =>
    simp only [beta, if_true, Option.some.injEq] at h
    subst h
    cases l' with
    | concat xs' axis' act' =>
      simp only [beta, if_true, Option.some.injEq, Custom.mk.injEq, true_and] at h'
      obtain ⟨rfl, ho⟩ := h'
      obtain ⟨rfl, hn, hx⟩ := hl
      obtain ⟨rfl, _, _⟩ := hl'
      match xs', hn, hx, ho with
      | t :: u :: xs, _, hx, ho =>
        have hu : 0 < dim u axis := by
          have := hx u (by simp)
          rw [dim, List.getD_eq_getElem?_getD, List.getElem?_eq_getElem this.1]
          exact this.2 _ (List.getElem_mem _)
        have := axis_unique t u xs axis axis' (hx t (by simp)).1 hu (by simpa only [outShape, List.headD_cons] using ho.symm)
        subst this
        rfl
    | conv => simp only [beta] at h'; split at h' <;> simp at h'
    | tconv => simp only [beta] at h'; split at h' <;> simp at h'
    | fc => simp [beta] at h'
    | unary => simp [beta] at h'

/-- **C121** (off). Without the option no layer is touched. -/
theorem C121_off (l : Layer R) : beta a false l = none := by
  cases l <;> simp [beta]

/-! ## Witnesses, in exact integers -/

/-- Integers; the three functions are not needed by the witnesses. -/
def ints : Arith Int where
  zero := 0
  add := (· + ·)
  mul := (· * ·)
  act
    | .none, v => v
    | .relu, v => max 0 v
    | .reluN1, v => max (-1) (min 1 v)
    | .relu6, v => max 0 (min 6 v)
  fn _ v := v

def const (s : List Nat) (v : Int) : T Int := ⟨s, fun _ => v⟩

/-- A tensor with different values at different places of a row and column. -/
def ramp (s : List Nat) : T Int := ⟨s, fun i => (i.getD 1 0 : Int) + 10 * (i.getD 2 0 : Int)⟩

theorem not_computable (P : Layer Int → Prop) (l l' : Layer Int) (hl : P l) (hl' : P l')
    (h : (beta ints true l).isSome) (e : beta ints true l = beta ints true l') (i : List Nat)
    (ne : (meaning ints l).val i ≠ (meaning ints l').val i) : ¬ Computable ints P := by
  rw [computable_iff]
  intro hc
  obtain ⟨c, hb⟩ := Option.isSome_iff_exists.1 h
  exact ne (by rw [hc l l' c hl hl' hb (e ▸ hb)])

/-- **C121** (refuted for fused activations): no kernel computes both the layers with and without a fused RELU, neither for convolutions (even VALID
and without dilation), nor transposed convolutions, fully connected layers without a bias, or concatenations: the activation is dropped. -/
theorem C121_activation_refuted :
    ¬ Computable ints (fun l => ∃ x f b act, l = .conv x f b 1 1 act .valid 2 1) ∧
    ¬ Computable ints (fun l => ∃ x f b out act, l = .tconv x f b out .valid 2 1 act) ∧
    ¬ Computable ints (fun l => ∃ x f act, l = .fc x f none act) ∧
    ¬ Computable ints (fun l => ∃ xs axis act, l = .concat xs axis act) := by
  refine ⟨?_, ?_, ?_, ?_⟩
  · exact not_computable _ (.conv (const [1, 3, 2, 1] 1) (const [1, 3, 2, 1] 1) (const [1] (-100)) 1 1 .none .valid 2 1)
      (.conv (const [1, 3, 2, 1] 1) (const [1, 3, 2, 1] 1) (const [1] (-100)) 1 1 .relu .valid 2 1)
      ⟨_, _, _, _, rfl⟩ ⟨_, _, _, _, rfl⟩ rfl rfl [0, 0, 0, 0] (by decide +kernel)
  · exact not_computable _ (.tconv (const [1, 1, 1, 1] 1) (const [1, 3, 2, 1] 1) (const [1] (-100)) [1, 3, 2, 1] .valid 2 1 .none)
      (.tconv (const [1, 1, 1, 1] 1) (const [1, 3, 2, 1] 1) (const [1] (-100)) [1, 3, 2, 1] .valid 2 1 .relu)
      ⟨_, _, _, _, _, rfl⟩ ⟨_, _, _, _, _, rfl⟩ rfl rfl [0, 0, 0, 0] (by decide +kernel)
  · exact not_computable _ (.fc (const [1, 2] 1) (const [3, 2] (-1)) none .none) (.fc (const [1, 2] 1) (const [3, 2] (-1)) none .relu)
      ⟨_, _, _, rfl⟩ ⟨_, _, _, rfl⟩ rfl rfl [0, 0] (by decide +kernel)
  · exact not_computable _ (.concat [const [2] (-1), const [3] 1] 0 .none) (.concat [const [2] (-1), const [3] 1] 0 .relu)
      ⟨_, _, _, rfl⟩ ⟨_, _, _, rfl⟩ rfl rfl [0] (by decide +kernel)

/-- **C121** (refuted for the bias): a fully connected layer loses its bias. -/
theorem C121_bias_refuted : ¬ Computable ints (fun l => ∃ x f b, l = .fc x f b .none) :=
  not_computable _ (.fc (const [1, 2] 1) (const [3, 2] 1) none .none) (.fc (const [1, 2] 1) (const [3, 2] 1) (some (const [3] 5)) .none)
    ⟨_, _, _, rfl⟩ ⟨_, _, _, rfl⟩ rfl rfl [0, 0] (by decide +kernel)

/-- **C121** (refuted for dilation with SAME padding): the output has the same shape whatever the dilation, which is dropped. -/
theorem C121_dilation_refuted : ¬ Computable ints (fun l => ∃ x f b dh dw, l = .conv x f b dh dw .none .same 2 1) :=
  not_computable _ (.conv (ramp [1, 8, 8, 1]) (const [1, 3, 2, 1] 1) (const [1] 0) 1 1 .none .same 2 1)
    (.conv (ramp [1, 8, 8, 1]) (const [1, 3, 2, 1] 1) (const [1] 0) 2 2 .none .same 2 1)
    ⟨_, _, _, _, _, rfl⟩ ⟨_, _, _, _, _, rfl⟩ rfl rfl [0, 1, 1, 0] (by decide +kernel)

/-- The plain layers include ones of every kind that the patterns replace. -/
theorem C121_example :
    (Plain (.conv (ramp [1, 8, 8, 2]) (const [4, 3, 2, 2] 1) (const [4] 0) 2 3 .none .valid 2 1) ∧
      (beta ints true (.conv (ramp [1, 8, 8, 2]) (const [4, 3, 2, 2] 1) (const [4] 0) 2 3 .none .valid 2 1)).isSome) ∧
    (Plain (.tconv (ramp [1, 8, 8, 2]) (const [4, 3, 2, 2] 1) (const [4] 0) [1, 16, 8, 4] .same 2 1 .none) ∧
      (beta ints true (.tconv (ramp [1, 8, 8, 2]) (const [4, 3, 2, 2] 1) (const [4] 0) [1, 16, 8, 4] .same 2 1 .none)).isSome) ∧
    (Plain (.concat [ramp [1, 4, 3], ramp [1, 5, 3]] 1 .none) ∧
      (beta ints true (.concat [ramp [1, 4, 3], ramp [1, 5, 3]] 1 .none)).isSome) := by
  refine ⟨⟨?_, rfl⟩, ⟨?_, rfl⟩, ?_, rfl⟩
  · exact ⟨rfl, by decide +kernel, by decide +kernel, by decide +kernel, (by intro h; cases h), fun _ => ⟨by decide +kernel, by decide +kernel⟩⟩
  · exact ⟨rfl, rfl⟩
  · refine ⟨rfl, by decide, ?_⟩
    intro t ht
    simp only [List.mem_cons, List.not_mem_nil, or_false] at ht
    rcases ht with rfl | rfl <;> exact ⟨by decide, by decide⟩

end Verif.XC.BetaFloat
