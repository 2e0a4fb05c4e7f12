import Verif.Model.Textbox

/-! # Vocabulary for the claims on the window -/

namespace CasSph.Spec

open CasSph

/-- The points of the plane covered by the oval inscribed into a box. -/
def InOval (b : Box) (x y : ℝ) : Prop := ((2 * x - (b.x0 + b.x1)) / (b.x1 - b.x0)) ^ 2 + ((2 * y - (b.y0 + b.y1)) / (b.y1 - b.y0)) ^ 2 ≤ 1

/-- The window shows, to scale, the cross-section of a sphere of radius `rS` at the origin and one of radius `rG` at distance `d` to the right. -/
def Shows (w : Window) (rS rG d : ℝ) : Prop :=
  ∃ s ox oy : ℝ, 0 < s ∧ ∀ u v : ℝ, (InOval w.sphereS (ox + s * u) (oy + s * v) ↔ u ^ 2 + v ^ 2 ≤ rS ^ 2) ∧
    (InOval w.sphereG (ox + s * u) (oy + s * v) ↔ (u - d) ^ 2 + v ^ 2 ≤ rG ^ 2)

/-- The two ovals have a point in common. -/
def Overlap (w : Window) : Prop := ∃ x y, InOval w.sphereS x y ∧ InOval w.sphereG x y

end CasSph.Spec
