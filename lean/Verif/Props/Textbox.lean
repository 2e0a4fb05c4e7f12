import Verif.Spec.Textbox
import Verif.Lemmas.LinAlg
import Mathlib.Tactic.Linarith
import Mathlib.Tactic.FieldSimp
import Mathlib.Tactic.Ring
import Mathlib.Tactic.NormNum
import Mathlib.Tactic.Positivity

/-! # C112: the input window -/

namespace CasSph

open Spec

variable {float : String → Option ℝ} {c : Click} {w : Window}

/-- **C112, status labels.** Every click adds exactly one label to the older ones. -/
theorem C112_label : (retrieveInput float c w).2.labels = w.labels ++ [statusText float c] ∧
    (statusText float c = "worked" ↔ float c.r2 ≠ none ∧ float c.d ≠ none) ∧
    (statusText float c = "invalid variable: distance" ↔ float c.d = none) ∧
    (statusText float c = "invalid variable: Radius 2" ↔ float c.r2 = none ∧ float c.d ≠ none) := by
  refine ⟨?_, ?_⟩
  · unfold retrieveInput redraw
    cases float c.r1 <;> cases float c.r2 <;> cases float c.d <;> simp only [Option.elim, ok_bind, error_bind]
    all_goals (try split_ifs) <;> simp
  · unfold statusText
    cases float c.r2 <;> cases float c.d <;> simp

/-- **C112, an invalid first radius is not reported.** The label reads "worked", and the callback ends with an exception. -/
theorem C112_radius1 (h1 : float c.r1 = none) (h2 : float c.r2 ≠ none) (h3 : float c.d ≠ none) :
    retrieveInput float c w = (.error .unboundLocalError, { w with labels := w.labels ++ ["worked"] }) := by
  unfold retrieveInput redraw
  rw [h1, (C112_label (w := w)).2.1.mpr ⟨h2, h3⟩]
  simp [Option.elim, error_bind]

/-- **C112, when the picture changes.** The callback returns if and only if the three texts are numbers and the larger radius is not zero; otherwise it
raises and only a label was added. -/
theorem C112_returns : ((retrieveInput float c w).1 = .ok () ↔
      ∃ r1 r2 d, float c.r1 = some r1 ∧ float c.r2 = some r2 ∧ float c.d = some d ∧ max r1 r2 ≠ 0) ∧
    ∀ e, (retrieveInput float c w).1 = .error e → (retrieveInput float c w).2 = { w with labels := w.labels ++ [statusText float c] } ∧
      (e = .unboundLocalError ∨ e = .zeroDivisionError) ∧
      (e = .zeroDivisionError ↔ ∃ r1 r2, float c.r1 = some r1 ∧ float c.r2 = some r2 ∧ max r1 r2 = 0) := by
  unfold retrieveInput redraw
  cases h1 : float c.r1 with
  | none => simp [Option.elim, error_bind]
  | some r1 =>
    cases h2 : float c.r2 with
    | none => simp [Option.elim, error_bind, ok_bind]
    | some r2 =>
      by_cases h0 : max r1 r2 = 0
      · simp [Option.elim, ok_bind, h0]
      · cases h3 : float c.d with
        | none => simp [Option.elim, ok_bind, error_bind, h0]
        | some d => simp [Option.elim, ok_bind, h0]

/-- **C112, the picture is to scale.** For positive radii the window shows the smaller sphere on the left and the larger one on the right at the given
distance, true to scale. -/
theorem C112_picture {r1 r2 d : ℝ} (h1 : float c.r1 = some r1) (h2 : float c.r2 = some r2) (h3 : float c.d = some d) (p1 : 0 < r1) (p2 : 0 < r2) :
    (retrieveInput float c w).1 = .ok () ∧ Shows (retrieveInput float c w).2 (min r1 r2) (max r1 r2) d := by
  have hS : 0 < min r1 r2 := lt_min p1 p2
  have hG : 0 < max r1 r2 := lt_max_of_lt_left p1
  unfold retrieveInput redraw
  rw [h1, h2, h3]
  simp only [Option.elim, ok_bind, if_neg hG.ne', true_and]
  generalize min r1 r2 = a at *
  generalize max r1 r2 = b at *
  refine ⟨50 / b, 10 + a / b * 50, c.height / 2, by positivity, fun u v => ⟨?_, ?_⟩⟩
  · unfold InOval
    simp only
    have e : ((2 * (10 + a / b * 50 + 50 / b * u) - (10 + (2 * (a / b * 50) + 10))) / (2 * (a / b * 50) + 10 - 10)) ^ 2 +
        ((2 * (c.height / 2 + 50 / b * v) - (c.height / 2 + a / b * 50 + (c.height / 2 - a / b * 50))) /
          (c.height / 2 - a / b * 50 - (c.height / 2 + a / b * 50))) ^ 2 = (u ^ 2 + v ^ 2) / a ^ 2 := by
      have e1 : (2 * (10 + a / b * 50 + 50 / b * u) - (10 + (2 * (a / b * 50) + 10))) / (2 * (a / b * 50) + 10 - 10) = u / a := by
        field_simp; ring
      have e2 : (2 * (c.height / 2 + 50 / b * v) - (c.height / 2 + a / b * 50 + (c.height / 2 - a / b * 50))) /
          (c.height / 2 - a / b * 50 - (c.height / 2 + a / b * 50)) = -(v / a) := by
        have : c.height / 2 - a / b * 50 - (c.height / 2 + a / b * 50) = -(100 * a / b) := by ring
        rw [this]
        field_simp; ring
      rw [e1, e2]
      field_simp
    rw [e, div_le_one (by positivity)]
  · unfold InOval
    simp only
    have e : ((2 * (10 + a / b * 50 + 50 / b * u) - (10 + a / b * 50 + d / b * 50 - 50 + (10 + a / b * 50 + d / b * 50 + 50))) /
          (10 + a / b * 50 + d / b * 50 + 50 - (10 + a / b * 50 + d / b * 50 - 50))) ^ 2 +
        ((2 * (c.height / 2 + 50 / b * v) - (c.height / 2 + 50 + (c.height / 2 - 50))) /
          (c.height / 2 - 50 - (c.height / 2 + 50))) ^ 2 = ((u - d) ^ 2 + v ^ 2) / b ^ 2 := by
      have e0 : 10 + a / b * 50 + d / b * 50 + 50 - (10 + a / b * 50 + d / b * 50 - 50) = 100 := by ring
      have e1 : c.height / 2 - 50 - (c.height / 2 + 50) = -100 := by ring
      rw [e0, e1]
      field_simp; ring
    rw [e, div_le_one (by positivity)]

/-- What a window shows to scale overlaps exactly if the spheres do. -/
theorem shows_overlap {rS rG d : ℝ} (h : Shows w rS rG d) (hS : 0 < rS) (hG : 0 < rG) (hd : 0 ≤ d) : Overlap w ↔ d ≤ rS + rG := by
  obtain ⟨s, ox, oy, hs, hsh⟩ := h
  constructor
  · rintro ⟨x, y, a, b⟩
    have ex : ox + s * ((x - ox) / s) = x := by field_simp; ring
    have ey : oy + s * ((y - oy) / s) = y := by field_simp; ring
    have a' := (hsh ((x - ox) / s) ((y - oy) / s)).1
    have b' := (hsh ((x - ox) / s) ((y - oy) / s)).2
    rw [ex, ey] at a' b'
    have a' := a'.mp a
    have b' := b'.mp b
    generalize (x - ox) / s = u at *
    generalize (y - oy) / s = v at *
    have hu : u ≤ rS := abs_le_of_sq_le_sq' (by nlinarith) hS.le |>.2
    have hv : -rG ≤ u - d := abs_le_of_sq_le_sq' (by nlinarith) hG.le |>.1
    linarith
  · intro hle
    refine ⟨ox + s * min rS d, oy + s * 0, (hsh _ _).1.mpr ?_, (hsh _ _).2.mpr ?_⟩
    · have h0 : 0 ≤ min rS d := le_min hS.le hd
      have h1 : min rS d ≤ rS := min_le_left _ _
      nlinarith
    · rcases min_cases rS d with ⟨e, e'⟩ | ⟨e, e'⟩ <;> rw [e] <;> nlinarith

/-- **C112, overlap.** The two circles drawn overlap or touch exactly if the spheres do. -/
theorem C112_overlap {r1 r2 d : ℝ} (h1 : float c.r1 = some r1) (h2 : float c.r2 = some r2) (h3 : float c.d = some d) (p1 : 0 < r1) (p2 : 0 < r2)
    (hd : 0 ≤ d) : Overlap (retrieveInput float c w).2 ↔ d ≤ r1 + r2 := by
  rw [shows_overlap (C112_picture (w := w) h1 h2 h3 p1 p2).2 (lt_min p1 p2) (lt_max_of_lt_left p1) hd, min_add_max]

/-- **C112, order of the radii.** Exchanging the two radii gives the same window. -/
theorem C112_exchange {r1 r2 : ℝ} (h1 : float c.r1 = some r1) (h2 : float c.r2 = some r2) :
    retrieveInput float { c with r1 := c.r2, r2 := c.r1 } w = retrieveInput float c w := by
  unfold retrieveInput redraw statusText
  simp only [h1, h2, Option.elim, ok_bind, min_comm r2 r1, max_comm r2 r1]
  rfl

/-- Whether a click returns does not depend on the window. -/
theorem returns_iff (w' : Window) : (retrieveInput float c w).1 = .ok () ↔ (retrieveInput float c w').1 = .ok () := by
  rw [C112_returns.1, C112_returns.1]

/-- A click that raises leaves the ovals as they are. -/
theorem raises_ovals (h : (retrieveInput float c w).1 ≠ .ok ()) :
    (retrieveInput float c w).2.sphereS = w.sphereS ∧ (retrieveInput float c w).2.sphereG = w.sphereG := by
  cases e : (retrieveInput float c w).1 with
  | ok u => exact absurd e h
  | error e' => rw [(C112_returns.2 e' e).1]; exact ⟨rfl, rfl⟩

/-- **C112, sequences of clicks.** The labels pile up, one for each click, and the picture is the one of the last click that returned. -/
theorem C112_clicks : (∀ cs : List Click, (clicks float w cs).labels = w.labels ++ cs.map (statusText float)) ∧
    ∀ (cs : List Click) (c : Click) (cs' : List Click), (retrieveInput float c w).1 = .ok () → (∀ c' ∈ cs', (retrieveInput float c' w).1 ≠ .ok ()) →
      (clicks float w (cs ++ c :: cs')).sphereS = (retrieveInput float c w).2.sphereS ∧
      (clicks float w (cs ++ c :: cs')).sphereG = (retrieveInput float c w).2.sphereG := by
  constructor
  · intro cs
    unfold clicks
    induction cs generalizing w with
    | nil => simp
    | cons c cs ih => rw [List.foldl_cons, ih, C112_label.1]; simp
  · intro cs c cs' hc hcs
    unfold clicks
    rw [List.foldl_append, List.foldl_cons]
    generalize List.foldl _ w cs = w'
    have e : (retrieveInput float c w').2.sphereS = (retrieveInput float c w).2.sphereS ∧
        (retrieveInput float c w').2.sphereG = (retrieveInput float c w).2.sphereG := by
      obtain ⟨r1, r2, d, e1, e2, e3, h0⟩ := C112_returns.1.mp hc
      unfold retrieveInput redraw
      simp only [e1, e2, e3, Option.elim, ok_bind, if_neg h0, and_self]
    rw [← e.1, ← e.2]
    generalize (retrieveInput float c w').2 = v
    induction cs' generalizing v with
    | nil => exact ⟨rfl, rfl⟩
    | cons c' cs' ih =>
      have h1 := raises_ovals (w := v) (mt (returns_iff w).mp (hcs c' List.mem_cons_self))
      have h2 := ih (fun x hx => hcs x (List.mem_cons_of_mem _ hx)) (retrieveInput float c' v).2
      exact ⟨h2.1.trans h1.1, h2.2.trans h1.2⟩

/-! ## Examples -/

/-- A parser for the examples. -/
noncomputable def someFloat (s : String) : Option ℝ := if s = "1" then some 1 else if s = "2" then some 2 else if s = "4" then some 4 else none

/-- Radii 2 and 1 at distance 4: the circles are drawn apart from each other. -/
example (w : Window) : (retrieveInput someFloat ⟨"2", "1", "4", 200⟩ w).1 = .ok () ∧ ¬ Overlap (retrieveInput someFloat ⟨"2", "1", "4", 200⟩ w).2 := by
  have h1 : someFloat "2" = some 2 := by simp [someFloat]
  have h2 : someFloat "1" = some 1 := by simp [someFloat]
  have h3 : someFloat "4" = some 4 := by simp [someFloat]
  refine ⟨(C112_picture (c := ⟨"2", "1", "4", 200⟩) h1 h2 h3 two_pos one_pos).1, ?_⟩
  rw [C112_overlap (c := ⟨"2", "1", "4", 200⟩) h1 h2 h3 two_pos one_pos (by norm_num)]
  norm_num

/-- An empty first field: "worked", and an exception. -/
example (w : Window) : retrieveInput someFloat ⟨"", "1", "4", 200⟩ w = (.error .unboundLocalError, { w with labels := w.labels ++ ["worked"] }) :=
  C112_radius1 (by simp [someFloat]) (by simp [someFloat]) (by simp [someFloat])

end CasSph
