/-
Property C106: failures are reported.
-/
import Verif.Model.Messages
import Verif.Props.Chain
import Verif.Props.Text
import Verif.Props.Impedance

namespace Razorback.Props
open Razorback Razorback.Spec Razorback.Text Razorback.MEst Razorback.Chain Razorback.Impedance Razorback.Fourier
  Razorback.Prefilter Razorback.Messages

theorem msg_middle : "). while processing step ".toList = ").".toList ++ [' '] ++ "while processing step ".toList := by decide +kernel

theorem msg_dot : ").".toList = ')' :: ".".toList := by decide +kernel

theorem nonConv_text (a b : ℕ) : nonConvStr [maxitMsg a, stepMsg b] = "failed to converge (maxit=".toList ++ nat a ++ "). while processing step ".toList ++
        nat b ++ " (weighting=1).".toList := by
  rw [msg_middle]
  unfold nonConvStr maxitMsg stepMsg
  generalize "failed to converge (maxit=".toList = c1, "while processing step ".toList = c2, " (weighting=1).".toList = c3, ").".toList = c4
  simp only [join, List.append_assoc]

theorem nonConv_inj (a b a' b' : ℕ) (h : nonConvStr [maxitMsg a, stepMsg b] = nonConvStr [maxitMsg a', stepMsg b']) : a = a' ∧ b = b' := by
  unfold nonConvStr maxitMsg stepMsg at h
  rw [msg_dot] at h
  generalize "failed to converge (maxit=".toList = c1, "while processing step ".toList = c2, " (weighting=1).".toList = c3, ".".toList = c4 at h
  simp only [join, List.append_assoc, List.cons_append] at h
  have h1 := List.append_cancel_left h
  obtain ⟨h2, h3⟩ := cut (nat_no (by decide)) (nat_no (by decide)) h1
  have h4 := List.append_cancel_left h3
  simp only [List.nil_append, List.cons.injEq, true_and] at h4
  have h4 := List.append_cancel_left (h4)
  exact ⟨nat_inj h2, nat_inj (List.append_cancel_right h4)⟩

section chain
variable {𝕜 : Type} [RCLike 𝕜] {q : ℕ} {σ : Type}

/-- **C106.** If an estimation does not converge, the text of the exception tells the maximal number of iterations and the step that
failed, counted from 1: the chain gave the results of the steps before this one. -/
theorem C106_nonconvergence (o : MEst.Opts) (other : Err → Txt) (ws : Weighting σ 𝕜 q) (e : List 𝕜) (b : List (Fin q → 𝕜))
    (z : Option (Fin q → 𝕜)) (ii : Option (List ℕ)) (heap : ℕ → σ)
    (h : (chainLoop o ws e b z ii heap).1 = .error .nonConv) :
    ∃ l last, l.length < ws.length ∧ Answers o (.fresh ws e b z ii) heap ((z, ii) :: later l) last ∧
      message o other last = some ("failed to converge (maxit=".toList ++ nat o.maxit ++ "). while processing step ".toList ++
        nat (l.length + 1) ++ " (weighting=1).".toList) := by
  obtain ⟨l, step, h1, h2, -, h3⟩ := C92_failed o ws e b z ii heap .nonConv h
  refine ⟨l, _, h1, h2, ?_⟩
  rw [h3 rfl]
  rw [← nonConv_text]
  simp only [message, text, if_true]

/-- **C106.** The text of NonConvergence determines the number of iterations and the step. -/
theorem C106_unambiguous (o o' : MEst.Opts) (other other' : Err → Txt) (it it' : ℕ)
    (h : message (𝕜 := 𝕜) (q := q) o other (.raised .nonConv (some it)) = message (𝕜 := 𝕜) (q := q) o' other' (.raised .nonConv (some it'))) :
    o.maxit = o'.maxit ∧ it = it' := by
  simp only [message, text, if_true, Option.some.injEq] at h
  exact nonConv_inj _ _ _ _ h

/-- A chain that fails at its first step: no iteration is allowed. -/
example (wf : WFun Unit ℝ 1) : (chainLoop (q := 1) { maxit := 0 } [some (0, wf)] [(5 : ℝ), 6] [fun _ => 1, fun _ => 2] (some (fun _ => 3))
    none (fun _ => ())).1 = .error .nonConv := by
  simp [chainLoop, eliminate, callEstimate, mEstimate, loop]

end chain

section log
variable {κ σ : Type}

theorem secondLog_spec {o : Impedance.Opts σ} {wins : List ((ℚ × ℚ) × ℕ × ℕ × ℕ)} {e be : List (List ℂ)} {ivid1 : InvArg}
    {T : List (List (Option ℂ))} {failed r : Result} {heap : ℕ → σ} (hs : o.silentFail = true)
    (h : (secondStage o wins e be ivid1 T failed heap).1 = .ok r) :
    (secondLog o e be ivid1 heap = [] ∧ (secondStage { o with silentFail := false } wins e be ivid1 T failed heap).1 = .ok r) ∨
    ∃ x, secondLog o e be ivid1 heap = [.failure x] ∧
      (secondStage { o with silentFail := false } wins e be ivid1 T failed heap).1 = .error x := by
  unfold secondStage at h ⊢
  unfold secondLog
  cases hp : applyPrefilter e (rows be) (o.prefilter.map (fun p => p be.length)) ivid1 with
  | error x => rw [hp] at h; simp at h
  | ok inv =>
    rw [hp] at h
    simp only [hs] at h ⊢
    generalize estimate o.realPb o.weights o.mest e be inv heap = y at h ⊢
    obtain ⟨x | ⟨z, iv⟩, heap⟩ := y
    · exact .inr ⟨x, rfl, rfl⟩
    · left
      simp only at h ⊢
      cases ht : transferError e (cols be) z iv with
      | error x => rw [ht] at h; simp at h
      | ok err => rw [ht] at h; exact ⟨trivial, h⟩

/-- **C106.** With `silent_fail`, what is printed tells whether a result stands for a failure of the estimation and which one: the
frequency is printed, followed by the exception that is raised without `silent_fail`, and by nothing if there is none; the result is then
the same without `silent_fail`. -/
theorem C106_log (cal : κ → ℚ → Option ℂ) (S : SigSet ℂ κ) (freq : ℚ) (o : Impedance.Opts σ) (hs : o.silentFail = true)
    (heap : ℕ → σ) (r : Result) (h : (oneFreq cal S freq o heap).1 = .ok r) :
    (oneFreqLog cal S freq o heap = [.start freq] ∧ (oneFreq cal S freq { o with silentFail := false } heap).1 = .ok r) ∨
    ∃ x, oneFreqLog cal S freq o heap = [.start freq, .failure x] ∧
      (oneFreq cal S freq { o with silentFail := false } heap).1 = .error x := by
  have hrem : remoteChannels S { o with silentFail := false } = remoteChannels S o := rfl
  unfold oneFreq at h ⊢
  unfold oneFreqLog
  simp only [hrem]
  cases hE : S.tags.getItem o.tagElec with
  | error x => rw [hE] at h; simp at h
  | ok E =>
  rw [hE] at h
  cases hB : S.tags.getItem o.tagMag with
  | error x => rw [hB] at h; simp at h
  | ok B =>
  rw [hB] at h
  cases hR : remoteChannels S o with
  | error x => rw [hR] at h; simp at h
  | ok R =>
  rw [hR] at h
  simp only at h ⊢
  cases hf : setCoeffs cal S freq o.nper o.overlap o.win with
  | error x => rw [hf] at h; exact .inl ⟨rfl, h⟩
  | ok p =>
  obtain ⟨coeffs, w⟩ := p
  rw [hf] at h
  simp only at h ⊢
  cases he : Impedance.pick coeffs E with
  | error x => rw [he] at h; simp at h
  | ok e =>
  rw [he] at h
  simp only at h ⊢
  cases hb : Impedance.pick coeffs B with
  | error x => rw [hb] at h; simp at h
  | ok b =>
  rw [hb] at h
  simp only at h ⊢
  cases R with
  | none =>
    rcases secondLog_spec hs h with ⟨h1, h2⟩ | ⟨x, h1, h2⟩
    · exact .inl ⟨by rw [h1], h2⟩
    · exact .inr ⟨x, by rw [h1], h2⟩
  | some R =>
    simp only at h ⊢
    cases hbr : Impedance.pick coeffs R with
    | error x => rw [hbr] at h; simp at h
    | ok br =>
    rw [hbr] at h
    simp only [firstStage] at h ⊢
    have e1 : Opts.orPrefilter { o with silentFail := false } = o.orPrefilter := rfl
    have e2 : Opts.orWeights { o with silentFail := false } = o.orWeights := rfl
    rw [e1, e2]
    cases hp : applyPrefilter b (rows br) (o.orPrefilter.map (fun p => p br.length)) .none with
    | error x => rw [hp] at h; simp at h
    | ok inv =>
    rw [hp] at h
    simp only [hs] at h ⊢
    generalize estimate o.realPb o.orWeights o.mest b br inv heap = y at h ⊢
    obtain ⟨x | ⟨T, ivT⟩, heap⟩ := y
    · exact .inr ⟨x, rfl, rfl⟩
    · simp only at h ⊢
      rcases secondLog_spec hs h with ⟨h1, h2⟩ | ⟨x, h1, h2⟩
      · exact .inl ⟨by rw [h1], h2⟩
      · exact .inr ⟨x, by rw [h1], h2⟩

/-- **C106.** A failure of the Fourier step is not reported: the frequency is printed and nothing else, whatever the options (the
result is a failure, C61_fourier_failure). -/
theorem C106_fourier_unreported (cal : κ → ℚ → Option ℂ) (S : SigSet ℂ κ) (freq : ℚ) (o : Impedance.Opts σ) (E B : List ℕ)
    (R : Option (List ℕ)) (hc : Channels S o E B R) (x : Err) (h : setCoeffs cal S freq o.nper o.overlap o.win = .error x)
    (heap : ℕ → σ) : oneFreqLog cal S freq o heap = [.start freq] := by
  unfold oneFreqLog
  rw [hc.1, hc.2, remoteChannels_eq hc]
  simp only [h]

/-- **C106.** The lines of a call with `silent_fail` that returns are those of its frequencies, in order: one block for each result, which
starts with its frequency and tells its failure, if any. -/
theorem C106_blocks (cal : κ → ℚ → Option ℂ) (S : SigSet ℂ κ) (o : Impedance.Opts σ) (hs : o.silentFail = true) (freqs : List ℚ)
    (heap : ℕ → σ) (rs : List Result) (h : (impedance cal S o freqs heap).1 = .ok rs) :
    ∃ blocks : List (List Line), impedanceLog cal S o freqs heap = blocks.flatten ∧ rs.length = freqs.length ∧
      List.Forall₂ (fun (p : ℚ × Result) block => ∃ hp, (oneFreq cal S p.1 o hp).1 = .ok p.2 ∧
        ((block = [.start p.1] ∧ (oneFreq cal S p.1 { o with silentFail := false } hp).1 = .ok p.2) ∨
        ∃ x, block = [.start p.1, .failure x] ∧ (oneFreq cal S p.1 { o with silentFail := false } hp).1 = .error x))
        (freqs.zip rs) blocks := by
  replace h := (impedance_ok.1 h).1
  induction freqs generalizing heap rs with
  | nil =>
    simp only [eachFreq, Except.ok.injEq] at h
    subst h
    exact ⟨[], rfl, rfl, .nil⟩
  | cons f l ih =>
    rw [eachFreq] at h
    rw [impedanceLog]
    have hlog := C106_log cal S f o hs heap
    cases h1 : oneFreq cal S f o heap with
    | mk r1 g1 =>
    rw [h1] at h hlog
    cases r1 with
    | error x => simp at h
    | ok r =>
    simp only at h
    cases h2 : eachFreq cal S o l g1 with
    | mk r2 g2 =>
    rw [h2] at h
    cases r2 with
    | error x => simp at h
    | ok rs' =>
    simp only [Except.ok.injEq] at h
    subst h
    obtain ⟨blocks, b1, b2, b3⟩ := ih g1 rs' (by rw [h2])
    refine ⟨oneFreqLog cal S f o heap :: blocks, by simp [b1], by simp [b2], ?_⟩
    exact .cons ⟨heap, by rw [h1], hlog r rfl⟩ b3

/-- **C106.** The percentages printed by the mass processing go from 0 by equal steps, one for each combination and interval, and
stay below 100. -/
theorem C106_progress (n m : ℕ) : progress n m = (List.range (n * m)).map (fun j : ℕ => .progress (100 * j / (n * m : ℕ))) ∧
    ∀ j < n * m, (100 * j / (n * m : ℕ) : ℚ) < 100 := by
  constructor
  · have key : ∀ (N : ℚ) (n : ℕ), (List.range n).flatMap (fun k : ℕ => (List.range m).map (fun i : ℕ =>
        Line.progress (100 * ((k : ℚ) * m + i) / N))) = (List.range (n * m)).map (fun j : ℕ => .progress (100 * j / N)) := by
      intro N n
      induction n with
      | zero => simp
      | succ n ih =>
        rw [List.range_succ, List.flatMap_append, ih, Nat.succ_mul, List.range_add, List.map_append]
        simp
    unfold progress
    rw [key]
    simp
  · intro j hj
    have h0 : (0 : ℚ) < (n * m : ℕ) := by exact_mod_cast (by omega)
    rw [div_lt_iff₀ h0]
    have : (j : ℚ) < (n * m : ℕ) := by exact_mod_cast hj
    linarith

/-- Four steps. -/
example : progress 2 2 = [.progress 0, .progress 25, .progress 50, .progress 75] := by decide +kernel

/-- The data of C62 meets the hypotheses; its Fourier coefficients cannot be computed at the frequency 1, and only the frequency is
printed. -/
example : (∃ r, oneFreq (fun _ _ => some 1) exTones (1 / 4) { exOpts with silentFail := true } (fun _ => ()) = (.ok r, fun _ => ()) ∧
    r.impedance = [[some 2]]) ∧
    oneFreqLog (fun _ _ => some 1) exTones (1 / 4) { exOpts with silentFail := true } (fun _ => ()) = [.start (1 / 4)] ∧
    oneFreqLog (fun _ _ => some 1) exTones 1 { exOpts with silentFail := true } (fun _ => ()) = [.start 1] := by
  obtain ⟨r, h1, h2, -⟩ := exTones_result
  have h3 := (C61_silent (fun _ _ => some 1) exTones exTones_reach (1 / 4) exOpts rfl [0] [1] (some [2]) exTones_channels
    (fun _ => ())).1 r _ h1
  refine ⟨⟨r, h3, h2⟩, ?_, ?_⟩
  · rcases C106_log (fun _ _ => some 1) exTones (1 / 4) { exOpts with silentFail := true } rfl (fun _ => ()) r (by rw [h3]) with
      ⟨h, -⟩ | ⟨x, -, h⟩
    · exact h
    · have : (oneFreq (fun _ _ => some 1) exTones (1 / 4) exOpts (fun _ => ())).1 = .error x := h
      rw [h1] at this
      cases this
  · obtain ⟨x, hx⟩ := exTones_unusable
    have hc : Channels exTones { exOpts with silentFail := true } [0] [1] (some [2]) :=
      ⟨exTones_channels.1, exTones_channels.2, exTones_channels.3⟩
    exact C106_fourier_unreported _ _ _ _ _ _ _ hc x hx _

end log

end Razorback.Props
