import Verif.Conv.TransposeCompile
/-!
C97 in full, and why it does not hold.
-/
namespace Verif.Full
open Verif.Tensor Verif.Move Verif.Quant Verif.Threads Verif.Conv Verif.Conv.Compile

/-- C97 in full: for every fused activation and every output size up to `(in - 1) * stride + max kernel stride`. -/
def C97_full : Prop :=
  ∀ (cfg : Cfg) (lib : Lib), lib.Faithful → ∀ (r : ℚ → ℤ), Nearest r → ∀ (t : Types), 0 < t.inS → 0 < t.outS → (-128 ≤ t.zpi ∧ t.zpi ≤ 127) →
    ∀ (h w oh ow : Nat) (op : ConvOp), tconvMatches op = true → 1 ≤ h → 1 ≤ w → 0 < op.sh → 0 < op.sw → ∀ (ps : List ConvParams),
    Reordered op.filter op.sh op.sw ps → oh ≤ (h - 1) * op.sh + max op.filter.kh op.sh → ow ≤ (w - 1) * op.sw + max op.filter.kw op.sw →
    (∀ o < op.filter.o, op.filter.qp.zp o = 0) →
    (∀ o < op.filter.o, ∀ o' < op.filter.o, op.filter.qp.scale o ≤ cfg.factor * op.filter.qp.scale o') →
    AllLowered cfg lib t h w oh ow op ps → ∀ (x : Tensor), (∀ i, InShape [1, h, w, op.filter.c] i → -128 ≤ x i ∧ x i ≤ 127) →
    ∀ (cts : Nat → Nat → List (Nat × Nat)), CalcContract cts → ∀ (threads B : Nat), 1 ≤ threads → ∀ (m m' : TMem),
    RunsTo cfg lib cts threads B t h w oh ow op ps x m m' → ∀ (y xx o : Nat), InShape [1, oh, ow, op.filter.o] [0, y, xx, o] →
    Near cfg.threshold (m'.out (y, xx, o)) (tconv (rqT t r) t.zpi h w oh ow op x [0, y, xx, o])

theorem C97_full_refuted : ¬ C97_full := by
  intro h
  have hps := refReorder_spec exTId.filter 1 1
  have hall : AllLowered defaultCfg exactLib ⟨1, 0, 1, 0, .relu⟩ 1 1 1 1 exTId (refReorder exTId.filter 1 1) :=
    allLowered_exact rfl (by decide) (by decide)
  obtain ⟨m', hm'⟩ := threadedChain_exists exCts C55_example.2.2.1 1 1 1 exTId.filter.o (by decide) (by decide) (by decide)
    (phaseValue defaultCfg exactLib ⟨1, 0, 1, 0, .relu⟩ 1 1 1 1 exTId (refReorder exTId.filter 1 1)
      (padForTranspose 0 1 1 exTId.filter.c (refReorder exTId.filter 1 1) fun _ => -100))
    (fakeConvs false 1 exTId (refReorder exTId.filter 1 1)) (by decide) ⟨fun _ => 0, fun _ => 0⟩
  obtain ⟨a1, a2, a3⟩ := C97_activation_refuted defaultCfg exactLib exactLib_faithful (by norm_num [defaultCfg]) (by norm_num [defaultCfg])
    _ hps hall exCts C55_example.2.2.1 1 0 (by decide) _ m' hm'
  have := (h defaultCfg exactLib exactLib_faithful roundAway roundAway_nearest ⟨1, 0, 1, 0, .relu⟩ (by norm_num) (by norm_num) (by decide) 1 1 1 1
    exTId a1 (by decide) (by decide) (by decide) (by decide) _ hps (by decide) (by decide) (fun _ _ => rfl)
    (by intro o _ o' _; norm_num [exTId, QP.scale, defaultCfg]) hall (fun _ => -100) (fun _ _ => by decide) exCts C55_example.2.2.1 1 0 (by decide)
    _ m' hm' 0 0 0 ⟨by decide, by decide, by decide, by decide, trivial⟩).2 (by norm_num [defaultCfg])
  dsimp only at this
  rw [a2, abs_le] at this
  omega

end Verif.Full
