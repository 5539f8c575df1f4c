import Verif.Lemmas.HoFit
/-!
The four polynomial fits of /repo/ebsdtorch/s2_and_so3/orientations.py, as integers over `10^25`, and the resulting
errors of the rotation angle.
-/
namespace Verif.HoFit
open Verif.PolyCert

/-- the coefficients of orientations.py:441-450, times `10^25` -/
def fitSingle : List ℤ := [
  10000000000000009000000000, -4999994340386777500000000, -250151650601490200000000, -38120131548551729000000,
  -12106188330642162000000, 4932929599315541600000, -7008938552645062000000, 3097977492358907800000,
  -730234749632988430000]

theorem fitSingle_p0 : pieceOk 1649 fitSingle (0, 30, [900000000000000000000000000000, 580000000000000000000000000000000000000]) = true := by decide +kernel
theorem fitSingle_p1 : pieceOk 1649 fitSingle (30, 266, smul 1002786369119383 SN) = true := by decide +kernel
theorem fitSingle_p2 : pieceOk 1650 fitSingle (266, 1016, smul 2985173295355391 SN) = true := by decide +kernel
theorem fitSingle_p3 : pieceOk 1650 fitSingle (1016, 1766, smul 5837028171694910 SN) = true := by decide +kernel
theorem fitSingle_p4 : pieceOk 1651 fitSingle (1766, 2328, smul 7697689584916426 SN) = true := by decide +kernel
theorem fitSingle_p5 : pieceOk 1651 fitSingle (2328, 2468, smul 8839590826052372 SN) = true := by decide +kernel
theorem fitSingle_lip : (lip fitSingle : ℝ) / 10 ^ 25 ≤ 108 / 100 := by
  have : lip fitSingle = 10721445418209974310720000 := by decide +kernel
  rw [this]; norm_num

/-- the angle recovered from the squared homochoric radius `n` of a rotation by `2 u` -/
theorem fitSingle_angle {u n : ℝ} (h0 : 1e-3 ≤ u) (h1 : u ≤ Real.pi / 2) (hn : 0 ≤ n)
    (h : n ^ 3 = (0.75 * (2 * u - Real.sin (2 * u))) ^ 2) :
    |2 * Real.arccos (max (-1) (min (ev fitSingle n / 10 ^ 25) 1)) - 2 * u| ≤ 3e-7 := by
  have hu : 0 < u := lt_of_lt_of_le (by norm_num) h0
  have hx := (sq_range hu h1).2
  rw [show (3e-7 : ℝ) = 2 * 1.5e-7 by norm_num]
  by_cases c0 : u ^ 2 < ((30 : ℤ) : ℝ) / 1000
  · refine piece_near fitSingle_p0 (u0 := 1e-3) (Λ := 108 / 100) (by norm_num) h0 ?_ c0 hn h (by norm_num) (by norm_num) fitSingle_lip
      (by norm_num) (by norm_num) (by norm_num) (by norm_num)
    push_cast at c0; nlinarith
  by_cases c1 : u ^ 2 < ((266 : ℤ) : ℝ) / 1000
  · exact piece_far fitSingle_p1 (a := 173/1000) (Λ := 108 / 100) hu h1 (not_lt.mp c0) c1
      hn h (by norm_num) (by norm_num) (by norm_num) (by norm_num) fitSingle_lip (by norm_num) (by norm_num)
  by_cases c2 : u ^ 2 < ((1016 : ℤ) : ℝ) / 1000
  · exact piece_far fitSingle_p2 (a := 103/200) (Λ := 108 / 100) hu h1 (not_lt.mp c1) c2
      hn h (by norm_num) (by norm_num) (by norm_num) (by norm_num) fitSingle_lip (by norm_num) (by norm_num)
  by_cases c3 : u ^ 2 < ((1766 : ℤ) : ℝ) / 1000
  · exact piece_far fitSingle_p3 (a := 1007/1000) (Λ := 108 / 100) hu h1 (not_lt.mp c2) c3
      hn h (by norm_num) (by norm_num) (by norm_num) (by norm_num) fitSingle_lip (by norm_num) (by norm_num)
  by_cases c4 : u ^ 2 < ((2328 : ℤ) : ℝ) / 1000
  · exact piece_far fitSingle_p4 (a := 166/125) (Λ := 108 / 100) hu h1 (not_lt.mp c3) c4
      hn h (by norm_num) (by norm_num) (by norm_num) (by norm_num) fitSingle_lip (by norm_num) (by norm_num)
  exact piece_far fitSingle_p5 (a := 61/40) (Λ := 108 / 100) hu h1 (not_lt.mp c4)
    (by push_cast; norm_num at hx ⊢; linarith) hn h (by norm_num) (by norm_num) (by norm_num) (by norm_num) fitSingle_lip (by norm_num) (by norm_num)

/-- the coefficients of orientations.py:467-477, times `10^25` -/
def fitDouble : List ℤ := [
  10000000000000000000000000, -4999999712401328500000000, -250011818660440250000000, -39144209820521038000000,
  -8932026810453948300000, 311810242860836950000, -4396103278839647700000, 3965747172750643900000,
  -2637994505058693200000, 911853559795871590000, -148758678056925290000]

theorem fitDouble_p0 : pieceOk 1966 fitDouble (0, 30, [0, 29000000000000000000000000000000000000]) = true := by decide +kernel
theorem fitDouble_p1 : pieceOk 1966 fitDouble (30, 266, smul 40111454764775 SN) = true := by decide +kernel
theorem fitDouble_p2 : pieceOk 1967 fitDouble (266, 1016, smul 119406931814215 SN) = true := by decide +kernel
theorem fitDouble_p3 : pieceOk 1967 fitDouble (1016, 1766, smul 233481126867796 SN) = true := by decide +kernel
theorem fitDouble_p4 : pieceOk 1968 fitDouble (1766, 2328, smul 307907583396657 SN) = true := by decide +kernel
theorem fitDouble_p5 : pieceOk 1969 fitDouble (2328, 2460, smul 353583633042094 SN) = true := by decide +kernel
theorem fitDouble_p6 : pieceOk 1970 fitDouble (2460, 2468, smul 363553532203281 SN) = true := by decide +kernel
theorem fitDouble_lip : (lip fitDouble : ℝ) / 10 ^ 25 ≤ 150 / 100 := by
  have : lip fitDouble = 14965115151783483548160000 := by decide +kernel
  rw [this]; norm_num

/-- the angle recovered from the squared homochoric radius `n` of a rotation by `2 u` -/
theorem fitDouble_angle {u n : ℝ} (h0 : 1e-3 ≤ u) (h1 : u ≤ Real.pi / 2) (hn : 0 ≤ n)
    (h : n ^ 3 = (0.75 * (2 * u - Real.sin (2 * u))) ^ 2) :
    |2 * Real.arccos (max (-1) (min (ev fitDouble n / 10 ^ 25) 1)) - 2 * u| ≤ 1.2e-8 := by
  have hu : 0 < u := lt_of_lt_of_le (by norm_num) h0
  have hx := (sq_range hu h1).2
  rw [show (1.2e-8 : ℝ) = 2 * 6e-9 by norm_num]
  by_cases c0 : u ^ 2 < ((30 : ℤ) : ℝ) / 1000
  · refine piece_near fitDouble_p0 (u0 := 1e-3) (Λ := 150 / 100) (by norm_num) h0 ?_ c0 hn h (by norm_num) (by norm_num) fitDouble_lip
      (by norm_num) (by norm_num) (by norm_num) (by norm_num)
    push_cast at c0; nlinarith
  by_cases c1 : u ^ 2 < ((266 : ℤ) : ℝ) / 1000
  · exact piece_far fitDouble_p1 (a := 173/1000) (Λ := 150 / 100) hu h1 (not_lt.mp c0) c1
      hn h (by norm_num) (by norm_num) (by norm_num) (by norm_num) fitDouble_lip (by norm_num) (by norm_num)
  by_cases c2 : u ^ 2 < ((1016 : ℤ) : ℝ) / 1000
  · exact piece_far fitDouble_p2 (a := 103/200) (Λ := 150 / 100) hu h1 (not_lt.mp c1) c2
      hn h (by norm_num) (by norm_num) (by norm_num) (by norm_num) fitDouble_lip (by norm_num) (by norm_num)
  by_cases c3 : u ^ 2 < ((1766 : ℤ) : ℝ) / 1000
  · exact piece_far fitDouble_p3 (a := 1007/1000) (Λ := 150 / 100) hu h1 (not_lt.mp c2) c3
      hn h (by norm_num) (by norm_num) (by norm_num) (by norm_num) fitDouble_lip (by norm_num) (by norm_num)
  by_cases c4 : u ^ 2 < ((2328 : ℤ) : ℝ) / 1000
  · exact piece_far fitDouble_p4 (a := 166/125) (Λ := 150 / 100) hu h1 (not_lt.mp c3) c4
      hn h (by norm_num) (by norm_num) (by norm_num) (by norm_num) fitDouble_lip (by norm_num) (by norm_num)
  by_cases c5 : u ^ 2 < ((2460 : ℤ) : ℝ) / 1000
  · exact piece_far fitDouble_p5 (a := 61/40) (Λ := 150 / 100) hu h1 (not_lt.mp c4) c5
      hn h (by norm_num) (by norm_num) (by norm_num) (by norm_num) fitDouble_lip (by norm_num) (by norm_num)
  exact piece_far fitDouble_p6 (a := 196/125) (Λ := 150 / 100) hu h1 (not_lt.mp c5)
    (by push_cast; norm_num at hx ⊢; linarith) hn h (by norm_num) (by norm_num) (by norm_num) (by norm_num) fitDouble_lip (by norm_num) (by norm_num)

/-- the coefficients of orientations.py:546-561, times `10^25` -/
def fitKikuchipy : List ℤ := [
  10000000000018852000000000, -5000000002194847000000000, -249999921275931260000000, -39287015447813740000000,
  -8152701535450438000000, -2009500426119712000000, -239798677607175600000, -820286892660584100000,
  1244871504209009200000, -1749114214822577000000, 1703481934140054000000, -1206206500411682800000,
  597197058686608260000, -198075672396564700000, 39537146842128740000, -3655500143971954400]

theorem fitKikuchipy_p0 : pieceOk 2759 fitKikuchipy (0, 30, [1885200000000000000000000000000000, 300000000000000000000000000000000000]) = true := by decide +kernel
theorem fitKikuchipy_p1 : pieceOk 2759 fitKikuchipy (30, 1030, smul 132500301024783 SN) = true := by decide +kernel
theorem fitKikuchipy_p2 : pieceOk 2760 fitKikuchipy (1030, 2030, smul 776620261497863 SN) = true := by decide +kernel
theorem fitKikuchipy_p3 : pieceOk 2765 fitKikuchipy (2030, 2468, smul 1090638315949662 SN) = true := by decide +kernel
theorem fitKikuchipy_lip : (lip fitKikuchipy : ℝ) / 10 ^ 25 ≤ 656 / 100 := by
  have : lip fitKikuchipy = 65576525655071331845824000 := by decide +kernel
  rw [this]; norm_num

/-- the angle recovered from the squared homochoric radius `n` of a rotation by `2 u` -/
theorem fitKikuchipy_angle {u n : ℝ} (h0 : 1e-4 ≤ u) (h1 : u ≤ Real.pi / 2) (hn : 0 ≤ n)
    (h : n ^ 3 = (0.75 * (2 * u - Real.sin (2 * u))) ^ 2) :
    |2 * Real.arccos (max (-1) (min (ev fitKikuchipy n / 10 ^ 25) 1)) - 2 * u| ≤ 4e-8 := by
  have hu : 0 < u := lt_of_lt_of_le (by norm_num) h0
  have hx := (sq_range hu h1).2
  rw [show (4e-8 : ℝ) = 2 * 2e-8 by norm_num]
  by_cases c0 : u ^ 2 < ((30 : ℤ) : ℝ) / 1000
  · refine piece_near fitKikuchipy_p0 (u0 := 1e-4) (Λ := 656 / 100) (by norm_num) h0 ?_ c0 hn h (by norm_num) (by norm_num) fitKikuchipy_lip
      (by norm_num) (by norm_num) (by norm_num) (by norm_num)
    push_cast at c0; nlinarith
  by_cases c1 : u ^ 2 < ((1030 : ℤ) : ℝ) / 1000
  · exact piece_far fitKikuchipy_p1 (a := 173/1000) (Λ := 656 / 100) hu h1 (not_lt.mp c0) c1
      hn h (by norm_num) (by norm_num) (by norm_num) (by norm_num) fitKikuchipy_lip (by norm_num) (by norm_num)
  by_cases c2 : u ^ 2 < ((2030 : ℤ) : ℝ) / 1000
  · exact piece_far fitKikuchipy_p2 (a := 507/500) (Λ := 656 / 100) hu h1 (not_lt.mp c1) c2
      hn h (by norm_num) (by norm_num) (by norm_num) (by norm_num) fitKikuchipy_lip (by norm_num) (by norm_num)
  exact piece_far fitKikuchipy_p3 (a := 178/125) (Λ := 656 / 100) hu h1 (not_lt.mp c2)
    (by push_cast; norm_num at hx ⊢; linarith) hn h (by norm_num) (by norm_num) (by norm_num) (by norm_num) fitKikuchipy_lip (by norm_num) (by norm_num)

/-- the coefficients of orientations.py:570-590, times `10^25` -/
def fitEMsoft : List ℤ := [
  9999999999999968000000000, -4999999999998686600000000, -250000000006320550000000, -39285714964606830000000,
  -8164666077062752000000, -1941189644326164600000, -498582222987176900000, -141649623663860310000,
  -19000248160936107000, -57218454989850600000, 77721499206587780000, -105348345290970500000,
  95280142293353130000, -56602888762651250000, 12844901692764126000, 11255185726258763000,
  -13834391419956455000, 7513691751164847000, -2401996891720091000, 438688701746638800, -35917775353564864]

theorem fitEMsoft_p0 : pieceOk 3551 fitEMsoft (0, 30, [3200000000000000000000000000000, 3000000000000000000000000000000000]) = true := by decide +kernel
theorem fitEMsoft_p1 : pieceOk 3551 fitEMsoft (30, 1030, smul 160606425484 SN) = true := by decide +kernel
theorem fitEMsoft_p2 : pieceOk 3552 fitEMsoft (1030, 2030, smul 941357892724 SN) = true := by decide +kernel
theorem fitEMsoft_p3 : pieceOk 3559 fitEMsoft (2030, 2468, smul 1321985837514 SN) = true := by decide +kernel
theorem fitEMsoft_lip : (lip fitEMsoft : ℝ) / 10 ^ 25 ≤ 423 / 100 := by
  have : lip fitEMsoft = 42230810216176807612029440 := by decide +kernel
  rw [this]; norm_num

/-- the angle recovered from the squared homochoric radius `n` of a rotation by `2 u` -/
theorem fitEMsoft_angle {u n : ℝ} (h0 : 1e-4 ≤ u) (h1 : u ≤ Real.pi / 2) (hn : 0 ≤ n)
    (h : n ^ 3 = (0.75 * (2 * u - Real.sin (2 * u))) ^ 2) :
    |2 * Real.arccos (max (-1) (min (ev fitEMsoft n / 10 ^ 25) 1)) - 2 * u| ≤ 8e-11 := by
  have hu : 0 < u := lt_of_lt_of_le (by norm_num) h0
  have hx := (sq_range hu h1).2
  rw [show (8e-11 : ℝ) = 2 * 4e-11 by norm_num]
  by_cases c0 : u ^ 2 < ((30 : ℤ) : ℝ) / 1000
  · refine piece_near fitEMsoft_p0 (u0 := 1e-4) (Λ := 423 / 100) (by norm_num) h0 ?_ c0 hn h (by norm_num) (by norm_num) fitEMsoft_lip
      (by norm_num) (by norm_num) (by norm_num) (by norm_num)
    push_cast at c0; nlinarith
  by_cases c1 : u ^ 2 < ((1030 : ℤ) : ℝ) / 1000
  · exact piece_far fitEMsoft_p1 (a := 173/1000) (Λ := 423 / 100) hu h1 (not_lt.mp c0) c1
      hn h (by norm_num) (by norm_num) (by norm_num) (by norm_num) fitEMsoft_lip (by norm_num) (by norm_num)
  by_cases c2 : u ^ 2 < ((2030 : ℤ) : ℝ) / 1000
  · exact piece_far fitEMsoft_p2 (a := 507/500) (Λ := 423 / 100) hu h1 (not_lt.mp c1) c2
      hn h (by norm_num) (by norm_num) (by norm_num) (by norm_num) fitEMsoft_lip (by norm_num) (by norm_num)
  exact piece_far fitEMsoft_p3 (a := 178/125) (Λ := 423 / 100) hu h1 (not_lt.mp c2)
    (by push_cast; norm_num at hx ⊢; linarith) hn h (by norm_num) (by norm_num) (by norm_num) (by norm_num) fitEMsoft_lip (by norm_num) (by norm_num)

end Verif.HoFit
