import Verif.Model.Py
import Mathlib.Data.Real.Basic

/-!
# Model of CasimirRio/textbox_get_example.py

The window with its three text fields, one button and the canvas with two ovals.  `float` is a parameter (`none` for a text it rejects), doubles are
reals (no infinities and no nan).  What Tk does besides storing texts, coordinates and colours is left out; the grid position of a status label is
not modelled, each call of `tk.Label(...).grid()` adds one more label to the window.
-/

namespace CasSph

/-- Corners of an oval on the canvas as given to `coords` and `create_oval` -/
structure Box where
  x0 : ℝ
  y0 : ℝ
  x1 : ℝ
  y1 : ℝ

/-- What is on the screen: the status labels in the order of their creation, the two ovals and their colours (textbox_get_example.py:26, 36-41, 60, 61) -/
structure Window where
  labels : List String
  sphereS : Box
  sphereG : Box
  fillS : String
  fillG : String

/-- textbox_get_example.py:57-61: the window before the first click, `h` is `w.winfo_height()` at that time -/
noncomputable def Window.initial (h : ℝ) : Window := ⟨[], ⟨10, h / 3, 60, h * 2 / 3⟩, ⟨10 + 100, h / 3, 50, h * 2 / 3⟩, "grey", "grey"⟩

/-- The texts of the three fields (textbox_get_example.py:7-9) and the height of the canvas at the time of a click (line 35) -/
structure Click where
  r1 : String
  r2 : String
  d : String
  height : ℝ

/-- textbox_get_example.py:12-25: the status text.  The `except` clause of the first field tests `not status_text == "worked"`, which is false there, and
discards the result of `join`, so that it changes nothing -/
def statusText (float : String → Option ℝ) (c : Click) : String :=
  let s := "worked"
  let s := if (float c.r2).isNone then "invalid variable: Radius 2" else s
  if (float c.d).isNone then "invalid variable: distance" else s

/-- textbox_get_example.py:27-41 after the label was created: reading a local variable that was not assigned raises UnboundLocalError, the division by the
larger radius ZeroDivisionError; lines 36-41 are reached only if nothing was raised -/
noncomputable def redraw (float : String → Option ℝ) (c : Click) (w : Window) : Res Window := do
  let radius1 ← (float c.r1).elim (.error .unboundLocalError) .ok
  let radius2 ← (float c.r2).elim (.error .unboundLocalError) .ok
  let rS := min radius1 radius2
  let rG := max radius1 radius2
  if rG = 0 then .error .zeroDivisionError
  else
    let norm : ℝ := 50
    let r1n := rS / rG * norm
    let r2n := norm
    let distance ← (float c.d).elim (.error .unboundLocalError) .ok
    let dn := distance / rG * norm
    let xoff : ℝ := 10
    let cy := c.height / 2
    .ok { w with
      sphereS := ⟨xoff, cy + r1n, 2 * r1n + xoff, cy - r1n⟩
      fillS := "grey"
      sphereG := ⟨xoff + r1n + dn - r2n, cy + r2n, xoff + r1n + dn + r2n, cy - r2n⟩
      fillG := "grey" }

/-- textbox_get_example.py:11-42 `retrieve_input()`: the exception, if any, and the window afterwards.  The label of line 26 stays when an exception
follows -/
noncomputable def retrieveInput (float : String → Option ℝ) (c : Click) (w : Window) : Res Unit × Window :=
  let w1 := { w with labels := w.labels ++ [statusText float c] }
  match redraw float c w1 with
  | .ok w2 => (.ok (), w2)
  | .error e => (.error e, w1)

/-- The button is pressed several times; Tk reports an exception of a callback and goes on (textbox_get_example.py:53, 65) -/
noncomputable def clicks (float : String → Option ℝ) (w : Window) (cs : List Click) : Window := cs.foldl (fun w c => (retrieveInput float c w).2) w

end CasSph
