import Verif.Model.Interpolation2D
import Verif.Props.SplineUnique
import Verif.Props.LinearInterpolation

/-! # C81 Interpolation in two dimensions -/

namespace Props
open Model Spec Lemmas

/-- A row of the data: at least three increasing knots with as many values. -/
structure ValidSplineRow (ys zs : List ℝ) : Prop where
  size : 3 ≤ ys.length
  length : zs.length = ys.length
  sorted : ys.Pairwise (· < ·)

/-- `s` is the natural cubic spline of a row between its first and last knot, continued by constants. -/
structure IsRowSpline (ys zs : List ℝ) (s : ℝ → ℝ) : Prop where
  spline : ∀ a b, ys.head? = some a → ys.getLast? = some b → ∃ s1 s2, IsCubicSpline ys zs a b s s1 s2 ∧ s2 a = 0 ∧ s2 b = 0
  left : ∀ a za t, ys.head? = some a → zs.head? = some za → t < a → s t = za
  right : ∀ b zb t, ys.getLast? = some b → zs.getLast? = some zb → b < t → s t = zb

/-- The value of the row spline at `y`. -/
noncomputable def rowValue (ys zs : List ℝ) (y : ℝ) : ℝ := cubicInterpolate y ys zs ((splineBuild ys zs none none none).getD [])

theorem row_ends (ys zs : List ℝ) (h : ValidSplineRow ys zs) : ∃ a b, ys.head? = some a ∧ ys.getLast? = some b := by
  have h1 := h.size
  rcases ys with _ | ⟨a, l⟩
  · simp at h1
  · exact ⟨a, _, rfl, List.getLast?_eq_some_getLast (by simp)⟩

theorem rowValue_isRowSpline (ys zs : List ℝ) (h : ValidSplineRow ys zs) : IsRowSpline ys zs (rowValue ys zs) := by
  refine ⟨?_, ?_, ?_⟩
  · intro a b ha hb
    obtain ⟨c, hc, _, hsp⟩ := C38_natural ys zs h.size h.length h.sorted a b ha hb false
    unfold rowValue
    rw [hc]
    exact hsp
  · intro a za t ha hza ht
    obtain ⟨a', b, ha', hb⟩ := row_ends ys zs h
    have hzb : ∃ zb, zs.getLast? = some zb := by
      rcases zs with _ | ⟨z, l⟩
      · cases hza
      · exact ⟨_, List.getLast?_eq_some_getLast (by simp)⟩
    obtain ⟨zb, hzb⟩ := hzb
    exact (C38_outside ys zs _ (by have := h.size; omega) h.length h.sorted a b za zb t ha hb hza hzb false).1 ht
  · intro b zb t hb hzb ht
    obtain ⟨a, b', ha, _⟩ := row_ends ys zs h
    have hza : ∃ za, zs.head? = some za := by
      rcases zs with _ | ⟨z, l⟩
      · cases hzb
      · exact ⟨_, rfl⟩
    obtain ⟨za, hza⟩ := hza
    exact (C38_outside ys zs _ (by have := h.size; omega) h.length h.sorted a b za zb t ha hb hza hzb false).2 ht

theorem rows_some : ∀ (rows : List (List ℝ × List ℝ)), (∀ r ∈ rows, ValidSplineRow r.1 r.2) →
    rows.mapM (fun r => splineBuild r.1 r.2 none none none) = some (rows.map fun r => (splineBuild r.1 r.2 none none none).getD []) := by
  intro rows h
  induction rows with
  | nil => rfl
  | cons r rows ih =>
    have hr := h r (List.mem_cons_self)
    obtain ⟨a, b, ha, hb⟩ := row_ends _ _ hr
    obtain ⟨c, hc, _⟩ := C38_natural r.1 r.2 hr.size hr.length hr.sorted a b ha hb false
    rw [List.mapM_cons, hc, ih (fun q hq => h q (List.mem_cons_of_mem _ hq)), List.map_cons, hc]
    rfl

/-- The data: increasing `x_data`, one valid row for each entry. -/
structure ValidData (xd : List ℝ) (yd zd : List (List ℝ)) : Prop where
  sorted : xd.Pairwise (· < ·)
  nonempty : xd ≠ []
  ylength : yd.length = xd.length
  zlength : zd.length = xd.length
  rows : ∀ (i : Nat) ys zs, yd[i]? = some ys → zd[i]? = some zs → ValidSplineRow ys zs

theorem interpolate2D_eq (xd : List ℝ) (yd zd : List (List ℝ)) (h : ValidData xd yd zd) (x y : ℝ) :
    interpolate2D xd yd zd x y = some (linearInterpolate x xd ((List.zip yd zd).map fun r => rowValue r.1 r.2 y)) := by
  unfold interpolate2D splineRows
  rw [rows_some]
  · change some _ = some _
    congr 2
    have : ∀ l : List (List ℝ × List ℝ), (List.zip l (l.map fun r => (splineBuild r.1 r.2 none none none).getD [])).map
        (fun r => cubicInterpolate y r.1.1 r.1.2 r.2) = l.map fun r => rowValue r.1 r.2 y := by
      intro l
      induction l with
      | nil => rfl
      | cons r l ih => simp only [List.map_cons, List.zip_cons_cons, ih]; rfl
    exact this _
  · intro r hr
    obtain ⟨i, hi⟩ := List.mem_iff_getElem?.1 hr
    rw [List.getElem?_zip_eq_some] at hi
    exact h.rows i _ _ hi.1 hi.2

theorem row_get (yd zd : List (List ℝ)) (y : ℝ) (i : Nat) (ys zs : List ℝ) (hy : yd[i]? = some ys) (hz : zd[i]? = some zs) :
    ((List.zip yd zd).map fun r => rowValue r.1 r.2 y)[i]? = some (rowValue ys zs y) := by
  rw [List.getElem?_map]
  have : (List.zip yd zd)[i]? = some (ys, zs) := List.getElem?_zip_eq_some.2 ⟨hy, hz⟩
  rw [this]
  rfl

/-- C81: on the line of an entry of `x_data` the value is that of the natural cubic spline of its row, continued by constants. -/
theorem C81_row (xd : List ℝ) (yd zd : List (List ℝ)) (h : ValidData xd yd zd) (i : Nat) (xi : ℝ) (ys zs : List ℝ)
    (hx : xd[i]? = some xi) (hy : yd[i]? = some ys) (hz : zd[i]? = some zs) :
    ∃ s, IsRowSpline ys zs s ∧ ∀ y, interpolate2D xd yd zd xi y = some (s y) := by
  refine ⟨rowValue ys zs, rowValue_isRowSpline ys zs (h.rows i ys zs hy hz), ?_⟩
  intro y
  rw [interpolate2D_eq xd yd zd h]
  congr 1
  exact C21_knot xd _ 0 0 i xi _ h.sorted (by simp [h.ylength, h.zlength]) hx (row_get yd zd y i ys zs hy hz)

/-- C81: the data are interpolated. -/
theorem C81_knots (xd : List ℝ) (yd zd : List (List ℝ)) (h : ValidData xd yd zd) (i j : Nat) (xi yij zij : ℝ) (ys zs : List ℝ)
    (hx : xd[i]? = some xi) (hy : yd[i]? = some ys) (hz : zd[i]? = some zs) (hyj : ys[j]? = some yij) (hzj : zs[j]? = some zij) :
    interpolate2D xd yd zd xi yij = some zij := by
  obtain ⟨s, hs, he⟩ := C81_row xd yd zd h i xi ys zs hx hy hz
  obtain ⟨a, b, ha, hb⟩ := row_ends ys zs (h.rows i ys zs hy hz)
  obtain ⟨_, _, hsp, _⟩ := hs.spline a b ha hb
  rw [he, hsp.knots j yij zij hyj hzj]

/-- C81: between two entries of `x_data` the value is the linear interpolation of the splines of the two rows; outside, it is the spline of the
first or the last row. -/
theorem C81_between (xd : List ℝ) (yd zd : List (List ℝ)) (h : ValidData xd yd zd) :
    (∀ (i : Nat) (x0 x1 x : ℝ) (ys0 zs0 ys1 zs1 : List ℝ), xd[i]? = some x0 → xd[i + 1]? = some x1 → yd[i]? = some ys0 → zd[i]? = some zs0 →
      yd[i + 1]? = some ys1 → zd[i + 1]? = some zs1 → x0 ≤ x → x ≤ x1 → ∃ s0 s1, IsRowSpline ys0 zs0 s0 ∧ IsRowSpline ys1 zs1 s1 ∧
        ∀ y, interpolate2D xd yd zd x y = some (((x1 - x) * s0 y + (x - x0) * s1 y) / (x1 - x0))) ∧
    (∀ (x0 x y : ℝ), xd.head? = some x0 → x < x0 → interpolate2D xd yd zd x y = interpolate2D xd yd zd x0 y) ∧
    (∀ (x1 x y : ℝ), xd.getLast? = some x1 → x1 < x → interpolate2D xd yd zd x y = interpolate2D xd yd zd x1 y) := by
  have hsrt := h.sorted.imp (S := (· ≤ ·)) le_of_lt
  refine ⟨?_, ?_, ?_⟩
  · intro i x0 x1 x ys0 zs0 ys1 zs1 hx0 hx1 hy0 hz0 hy1 hz1 h0 h1
    have r0 := rowValue_isRowSpline ys0 zs0 (h.rows i _ _ hy0 hz0)
    have r1 := rowValue_isRowSpline ys1 zs1 (h.rows (i + 1) _ _ hy1 hz1)
    refine ⟨_, _, r0, r1, ?_⟩
    intro y
    have hlt : x0 < x1 := by
      obtain ⟨i0, rfl⟩ := List.getElem?_eq_some_iff.1 hx0
      obtain ⟨i1, rfl⟩ := List.getElem?_eq_some_iff.1 hx1
      exact List.pairwise_iff_getElem.1 h.sorted i (i + 1) i0 i1 (by omega)
    have hne : x1 - x0 ≠ 0 := (sub_pos.2 hlt).ne'
    rw [interpolate2D_eq xd yd zd h]
    congr 1
    have g0 := row_get yd zd y i ys0 zs0 hy0 hz0
    have g1 := row_get yd zd y (i + 1) ys1 zs1 hy1 hz1
    rcases h0.lt_or_eq with hl | he
    · rw [C21_cell x x0 x1 _ _ xd _ 0 0 i hsrt hx0 hx1 g0 g1 hl h1]
      field_simp
      ring
    · rw [← he, C21_knot xd _ 0 0 i x0 _ h.sorted (by simp [h.ylength, h.zlength]) hx0 g0]
      field_simp
      ring
  · intro x0 x y hx0 hx
    rw [interpolate2D_eq xd yd zd h, interpolate2D_eq xd yd zd h]
    congr 1
    have hlen : ((List.zip yd zd).map fun r => rowValue r.1 r.2 y).length = xd.length := by simp [h.ylength, h.zlength]
    generalize (List.zip yd zd).map (fun r => rowValue r.1 r.2 y) = v at hlen
    rcases xd with _ | ⟨x0', xt⟩
    · cases hx0
    rcases v with _ | ⟨v0, vt⟩
    · simp at hlen
    simp at hx0
    subst hx0
    rw [C21_left _ _ _ _ _ _ _ hsrt hx.le, C21_left _ _ _ _ _ _ _ hsrt le_rfl]
    ring
  · intro x1 x y hx1 hx
    rw [interpolate2D_eq xd yd zd h, interpolate2D_eq xd yd zd h]
    congr 1
    have hlen : ((List.zip yd zd).map fun r => rowValue r.1 r.2 y).length = xd.length := by simp [h.ylength, h.zlength]
    generalize (List.zip yd zd).map (fun r => rowValue r.1 r.2 y) = v at hlen
    have hvne : v ≠ [] := by
      intro e
      rw [e] at hlen
      exact h.nonempty (List.length_eq_zero_iff.1 hlen.symm)
    have hv := List.getLast?_eq_some_getLast hvne
    rw [C21_right x x1 _ xd v 0 0 hsrt hx1 hv hx]
    have hx1' := hx1
    rw [List.getLast?_eq_getElem?] at hx1' hv
    rw [C21_knot xd v 0 0 (xd.length - 1) x1 (v.getLast hvne) h.sorted hlen hx1' (by rw [← hlen]; exact hv)]
    ring

/-- C81: values of a function `a + b x + c y + d x y` are reproduced in the rectangle covered by the data. -/
theorem C81_bilinear (xd : List ℝ) (yd : List (List ℝ)) (a b c d : ℝ)
    (h : ValidData xd yd (List.zipWith (fun x ys => ys.map fun y => a + b * x + c * y + d * x * y) xd yd))
    (y : ℝ) (hy : ∀ ys ∈ yd, ∀ y0 y1, ys.head? = some y0 → ys.getLast? = some y1 → y ∈ Set.Icc y0 y1)
    (x x0 x1 : ℝ) (hx0 : xd.head? = some x0) (hx1 : xd.getLast? = some x1) (hx : x ∈ Set.Icc x0 x1) :
    interpolate2D xd yd (List.zipWith (fun x ys => ys.map fun y => a + b * x + c * y + d * x * y) xd yd) x y =
      some (a + b * x + c * y + d * x * y) := by
  rw [interpolate2D_eq _ _ _ h]
  congr 1
  have hsrt := h.sorted.imp (S := (· ≤ ·)) le_of_lt
  have e : (List.zip yd (List.zipWith (fun x ys => ys.map fun y => a + b * x + c * y + d * x * y) xd yd)).map (fun r => rowValue r.1 r.2 y) =
      xd.map fun t => (b + d * y) * t + (a + c * y) := by
    apply List.ext_getElem?
    intro i
    by_cases hi : i < xd.length
    · have hyi : i < yd.length := by rw [h.ylength]; exact hi
      have hz : (List.zipWith (fun x ys => ys.map fun y => a + b * x + c * y + d * x * y) xd yd)[i]? =
          some (yd[i].map fun y => a + b * xd[i] + c * y + d * xd[i] * y) := by
        rw [List.getElem?_zipWith, List.getElem?_eq_getElem hi, List.getElem?_eq_getElem hyi]
      rw [row_get yd _ y i yd[i] _ (List.getElem?_eq_getElem hyi) hz, List.getElem?_map, List.getElem?_eq_getElem hi, Option.map_some]
      congr 1
      have hv := h.rows i _ _ (List.getElem?_eq_getElem hyi) hz
      obtain ⟨p, q, hp, hq⟩ := row_ends _ _ hv
      have em : (yd[i].map fun y => a + b * xd[i] + c * y + d * xd[i] * y) = yd[i].map fun y => (a + b * xd[i]) + (c + d * xd[i]) * y := by
        apply List.map_congr_left
        intro y _
        ring
      obtain ⟨co, hco, hval⟩ := C38_affine yd[i] hv.size hv.sorted p q hp hq false (a + b * xd[i]) (c + d * xd[i])
      unfold rowValue
      rw [em, hco, Option.getD_some, hval y (hy _ (List.getElem_mem hyi) p q hp hq)]
      ring
    · rw [List.getElem?_eq_none (by simp [h.ylength]; omega), List.getElem?_eq_none (by simp; omega)]
  rw [e, C21_affine x x0 x1 (b + d * y) (a + c * y) xd 0 0 hsrt (by rw [← List.head?_eq_getElem?]; exact hx0) hx1
    (fun h' => absurd h' (not_lt.2 hx.1)) (fun h' => absurd h' (not_lt.2 hx.2))]
  ring

example : interpolate2D [0, (2 : ℚ)] [[0, 1, 2], [1, 2, 4]] [[0, 1, 0], [3, 3, 3]] 1 (1 / 2) = some (59 / 32) := by decide +kernel

end Props
