import Verif.Model.WkTable
import Verif.Model.Numerics
import Mathlib.Analysis.SpecialFunctions.Pow.Real
import Mathlib.Analysis.SpecialFunctions.Log.Basic
import Mathlib.Analysis.Real.Pi.Bounds
/-!
Model of the atomic scattering factors, /repo/ebsdtorch/crystallography/scattering_factors/: `scatter_factor_WK`
(scattering_factors_WK.py:268-943), `scatter_factor_hybrid` (scattering_factors_Hybrid.py:393-1082) and `scatter_factor_LVD`
(scattering_factors_LVD_TCB.py:168-482).  Exact real arithmetic; a not-a-number is `none`.  Voltages are positive (for `V ≤ 0`
the code divides by zero or takes the root of a negative number).
-/
namespace Verif.Scat
open Real

/-- The four pairs of parameters of one element (scattering_factors_WK.py:694-695). -/
structure Fit where
  A : Fin 4 → ℝ
  B : Fin 4 → ℝ

/-- Row `i` of the default tables (scattering_factors_WK.py:60-264). -/
noncomputable def wkRow (i : ℕ) : Fit :=
  ⟨fun k => ((wkA.getD i []).getD k 0 : ℤ) / 100000, fun k => ((wkB.getD i []).getD k 0 : ℤ) / 100000⟩

/-- `table[Z - 1]` (scattering_factors_WK.py:694-695) with `n` rows: negative indices count from the end, others raise. -/
def rowOf (n : ℕ) (Z : ℤ) : Option ℕ :=
  if 0 ≤ Z - 1 ∧ Z - 1 < n then some (Z - 1).toNat
  else if -n ≤ Z - 1 ∧ Z - 1 < 0 then some (Z - 1 + n).toNat
  else none

/-- scattering_factors_WK.py:268-274 `evaluate_polynomial` (Horner; the loop starts from the last coefficient). -/
noncomputable def horner (c : List ℝ) (x : ℝ) : ℝ := c.foldr (fun a r => r * x + a) 0

/-- scattering_factors_WK.py:294-309: coefficients of `exp1` on `(0, 1]`. -/
noncomputable def e1P : List ℝ :=
  [0.0865197248079397976498, 0.0320913665303559189999, -0.245088216639761496153, -0.0368031736257943745142,
   -0.00399167106081113256961, -0.000111507792921197858394]
/-- scattering_factors_WK.py:302-309. -/
noncomputable def e1Q : List ℝ :=
  [1.0, 0.37091387659397013215, 0.056770677104207528384, 0.00427347600017103698101, 0.000131049900798434683324,
   -0.528611029520217142048e-6]
/-- scattering_factors_WK.py:320-332: coefficients of `exp1` above 1. -/
noncomputable def e1P2 : List ℝ :=
  [-0.121013190657725568138e-18, -0.999999999999998811143, -43.3058660811817946037, -724.581482791462469795,
   -6046.8250112711035463, -27182.6254466733970467, -66598.2652345418633509, -86273.1567711649528784,
   -54844.4587226402067411, -14751.4895786128450662, -1185.45720315201027667]
/-- scattering_factors_WK.py:333-346. -/
noncomputable def e1Q2 : List ℝ :=
  [1.0, 45.3058660811801465927, 809.193214954550328455, 7417.37624454689546708, 38129.5594484818471461,
   113057.05869159631492, 192104.047790227984431, 180329.498380501819718, 86722.3403467334749201, 18455.4124737722049515,
   1229.20784182403048905, -0.776491285282330997549]

/-- scattering_factors_WK.py:277-356 `exp1` for `0 < x` (`exp1(0)` is inf, negative arguments give NaN: not modelled). -/
noncomputable def exp1 (x : ℝ) : ℝ :=
  if x ≤ 1 then horner e1P x / horner e1Q x + x - log x - 0.66373538970947265625
  else (1 + horner e1P2 (1 / x) / horner e1Q2 (1 / x)) * exp (-x) * (1 / x)

/-- scattering_factors_WK.py:376-398: coefficients of `expi` on `(0, 6]`. -/
noncomputable def eiP : List ℝ :=
  [2.98677224343598593013, 0.356343618769377415068, 0.780836076283730801839, 0.114670926327032002811,
   0.0499434773576515260534, 0.00726224593341228159561, 0.00115478237227804306827, 0.000116419523609765200999,
   0.798296365679269702435e-5, 0.2777056254402008721e-6]
/-- scattering_factors_WK.py:388-397. -/
noncomputable def eiQ : List ℝ :=
  [1.0, -1.17090412365413911947, 0.62215109846016746276, -0.195114782069495403315, 0.0391523431392967238166,
   -0.00504800158663705747345, 0.000389034007436065401822, -0.138972589601781706598e-4]
/-- scattering_factors_WK.py:399: the zero of the exponential integral. -/
noncomputable def eiRoot : ℝ :=
  0.372507410781366634461991866580119133535689497771654051555657435242200120636201854384926049951548942392
/-- scattering_factors_WK.py:417-436: coefficients on `(6, 10]`. -/
noncomputable def eiP2 : List ℝ :=
  [0.00139324086199402804173, -0.0349921221823888744966, -0.0264095520754134848538, -0.00761224003005476438412,
   -0.00247496209592143627977, -0.000374885917942100256775, -0.554086272024881826253e-4, -0.396487648924804510056e-5]
/-- scattering_factors_WK.py:427-436. -/
noncomputable def eiQ2 : List ℝ :=
  [1.0, 0.744625566823272107711, 0.329061095011767059236, 0.100128624977313872323, 0.0223851099128506347278,
   0.00365334190742316650106, 0.000402453408512476836472, 0.263649630720255691787e-4]
/-- scattering_factors_WK.py:447-468: coefficients on `(10, 20]`. -/
noncomputable def eiP3 : List ℝ :=
  [-0.00893891094356945667451, -0.0484607730127134045806, -0.0652810444222236895772, -0.0478447572647309671455,
   -0.0226059218923777094596, -0.00720603636917482065907, -0.00155941947035972031334, -0.000209750022660200888349,
   -0.138652200349182596186e-4]
/-- scattering_factors_WK.py:458-468. -/
noncomputable def eiQ3 : List ℝ :=
  [1.0, 1.97017214039061194971, 1.86232465043073157508, 1.09601437090337519977, 0.438873285773088870812,
   0.122537731979686102756, 0.0233458478275769288159, 0.00278170769163303669021, 0.000159150281166108755531]
/-- scattering_factors_WK.py:481-497: coefficients above 20. -/
noncomputable def eiP4 : List ℝ :=
  [-0.0130653381347656243849, 0.19029710559486576682, 94.7365094537197236011, -2516.35323679844256203,
   18932.0850014925993025, -38703.1431362056714134]
/-- scattering_factors_WK.py:489-497. -/
noncomputable def eiQ4 : List ℝ :=
  [1.0, 61.9733592849439884145, -2354.56211323420194283, 22329.1459489893079041, -70126.245140396567133,
   54738.2833147775537106, 8297.16296356518409347]

/-- scattering_factors_WK.py:359-508 `expi` for `x ≠ 0` (`expi(0)` is -inf: not modelled).  `log1p(t / r)` and `log(x / r)` are
the same number. -/
noncomputable def expi (x : ℝ) : ℝ :=
  if x < 0 then -exp1 (-x)
  else if x ≤ 6 then
    horner eiP (x / 3 - 1) / horner eiQ (x / 3 - 1) * (x - eiRoot) + log (x / eiRoot)
  else if x ≤ 10 then
    (1.158985137939453125 + horner eiP2 (x / 2 - 4) / horner eiQ2 (x / 2 - 4)) * exp x / x + x
  else if x ≤ 20 then
    (1.086973190307617188 + horner eiP3 (x / 5 - 3) / horner eiQ3 (x / 5 - 3)) * exp x / x + x
  else (1.013065338134765625 + horner eiP4 (1 / x) / horner eiQ4 (1 / x)) * (exp x / x) + x

/-- scattering_factors_WK.py:514-541 `rih2_table`. -/
noncomputable def rih2Table : List ℝ :=
  [1.000000, 1.005051, 1.010206, 1.015472, 1.020852, 1.026355, 1.031985, 1.037751, 1.043662, 1.049726, 1.055956, 1.062364,
   1.068965, 1.075780, 1.082830, 1.090140, 1.097737, 1.105647, 1.113894, 1.122497, 1.131470]

/-- scattering_factors_WK.py:512-548 `RIH2_torch`, for `0 < X`. -/
noncomputable def rih2 (X : ℝ) : ℝ :=
  let idx : ℕ := (min (max ⌊200 / X⌋ 0) 19).toNat
  rih2Table.getD idx 0 + 200 * (rih2Table.getD (idx + 1) 0 - rih2Table.getD idx 0) * (1 / X - 0.5e-3 * idx)

/-- scattering_factors_WK.py:551-574 `RIH1_torch_where`; `ei` stands for `expi`. -/
noncomputable def rih1 (ei : ℝ → ℝ) (X1 X2 X3 : ℝ) : ℝ :=
  if X2 ≤ 20 ∧ X3 ≤ 20 then exp (-X1) * (ei X2 - ei X3)
  else if 20 < X2 ∧ X3 ≤ 20 then exp (X2 - X1) * rih2 X2 / X2 - exp (-X1) * ei X3
  else if X2 ≤ 20 ∧ 20 < X3 then exp (-X1) * ei X2 - exp (X3 - X1) * rih2 X3 / X3
  else exp (X2 - X1) * rih2 X2 / X2 - exp (X3 - X1) * rih2 X3 / X3

/-- scattering_factors_WK.py:578-594 `e_wavelength_eV_to_A`. -/
noncomputable def wavelength (E : ℝ) : ℝ :=
  exp (2.5066892156586356 - 0.5 * log E - 0.5 * log (1 + E * 9.7847589066012e-07))

/-- scattering_factors_WK.py:704-725: one of the four terms of the real part. -/
noncomputable def wkTerm (A B S : ℝ) : ℝ :=
  let argu := B * S ^ 2
  if argu < 0.1 then A * B * (1 - 0.5 * argu)
  else if argu ≤ 20 then A * (1 - exp (-argu)) / S ^ 2
  else A / S ^ 2

/-- scattering_factors_WK.py:711-726: the real part without thermal and relativistic factors. -/
noncomputable def fReal (f : Fit) (S : ℝ) : ℝ := ∑ k, wkTerm (f.A k) (f.B k) S

/-- scattering_factors_WK.py:739-794: the core contribution; `k0` is the wave number. -/
noncomputable def fCore (k0 Z V G : ℝ) : ℝ :=
  let thetaE := 6.0e-3 * Z / (2 * V) * (2 * V + 1022) / (V + 1022)
  let R := 0.885 * 0.5289 / Z ^ ((1 : ℝ) / 3)
  let TA := 1 / (k0 * R)
  let TB := G / (2 * k0)
  let Ω := 2 * TB / TA
  let K := thetaE / TA
  let X1 := Ω / ((1 + Ω ^ 2) * sqrt (Ω ^ 2 + 4 * K ^ 2)) * log ((Ω + sqrt (Ω ^ 2 + 4 * K ^ 2)) / (2 * K))
  let X2 := 1 / sqrt ((1 + Ω ^ 2) * (1 + Ω ^ 2) + 4 * K ^ 2 * Ω ^ 2)
    * log ((1 + 2 * K ^ 2 + Ω ^ 2 + sqrt ((1 + Ω ^ 2) * (1 + Ω ^ 2) + 4 * K ^ 2 * Ω ^ 2)) / (2 * K * sqrt (1 + K ^ 2)))
  let X3 := if 1e-2 < Ω then
      1 / (Ω * sqrt (Ω ^ 2 + 4 * (1 + K ^ 2))) * log ((Ω + sqrt (Ω ^ 2 + 4 * (1 + K ^ 2))) / (2 * sqrt (1 + K ^ 2)))
    else 1 / (4 * (1 + K ^ 2))
  4 / (0.5289 * 0.5289) * 2 * π / (k0 * k0) * (2 * Z / (TA * TA) * (-X1 + X2 - X3))

/-- scattering_factors_WK.py:798-806: the ten index pairs. -/
def pairs : List (Fin 4 × Fin 4) := [(0, 0), (0, 1), (0, 2), (0, 3), (1, 1), (1, 2), (1, 3), (2, 2), (2, 3), (3, 3)]

/-- scattering_factors_WK.py:833-835: `I1_0`. -/
noncomputable def i1zero (bi bj : ℝ) : ℝ := π * (bi * log ((bi + bj) / bi) + bj * log ((bi + bj) / bj))

/-- scattering_factors_WK.py:838-842: `I2_0`. -/
noncomputable def i2zero (bi bj M : ℝ) : ℝ :=
  π * ((bi + 2 * M) * log ((bi + bj + 2 * M) / (bi + 2 * M)) + bj * log ((bi + bj + 2 * M) / (bj + 2 * M))
    + 2 * M * log (2 * M / (bj + 2 * M)))

/-- scattering_factors_WK.py:853-868: `I1_g`. -/
noncomputable def i1g (ei : ℝ → ℝ) (bi bj G2 : ℝ) : ℝ :=
  π / G2 * (2 * 0.57721566490153286060651209008240243 + log (bi * G2) + log (bj * G2) - 2 * ei (-bi * bj * G2 / (bi + bj))
    + rih1 ei (bi * G2) (bi * bi * G2 / (bi + bj)) (bi * G2)
    + rih1 ei (bj * G2) (bj * bj * G2 / (bi + bj)) (bj * G2))

/-- scattering_factors_WK.py:871-916: `I2_g`. -/
noncomputable def i2g (ei : ℝ → ℝ) (bi bj M G2 : ℝ) : ℝ :=
  let BiM := bi + M
  let BjM := bj + M
  let BijM := bi + bj + 2 * M
  π / G2 * (2 * (ei (-M * BiM * G2 / (bi + 2 * M)) + ei (-M * BjM * G2 / (bj + 2 * M)) - ei (-BiM * BjM * G2 / BijM)
      - ei (-0.5 * M * G2))
    + rih1 ei (M * G2) (0.5 * M * G2) (M * M * G2 / (bi + 2 * M))
    + rih1 ei (M * G2) (0.5 * M * G2) (M * M * G2 / (bj + 2 * M))
    + rih1 ei (BiM * G2) (BiM * BiM * G2 / BijM) (BiM * BiM * G2 / (bi + 2 * M))
    + rih1 ei (BjM * G2) (BjM * BjM * G2 / BijM) (BjM * BjM * G2 / (bj + 2 * M)))

/-- scattering_factors_WK.py:808-811, 827-847: one entry of `result` before the sum over pairs. -/
noncomputable def pairTerm (ei : ℝ → ℝ) (f : Fit) (M G : ℝ) (ij : Fin 4 × Fin 4) : ℝ :=
  let Ai := f.A ij.1 * (4 * π) ^ 2
  let Aj := f.A ij.2 * (4 * π) ^ 2
  let bi := f.B ij.1 / (4 * π) ^ 2
  let bj := f.B ij.2 / (4 * π) ^ 2
  let I1 := if G = 0 then i1zero bi bj else i1g ei bi bj (G ^ 2)
  let I2 := if G = 0 then i2zero bi bj M else i2g ei bi bj M (G ^ 2)
  (if ij.1 = ij.2 then 1 else 2) * Ai * Aj * (exp (-M * G ^ 2) * I1 - I2)

/-- scattering_factors_WK.py:796-923: the phonon contribution.  For `σ = 0` the sum contains `0 * log 0` (at `G = 0`) or
`inf - inf`: NaN. -/
noncomputable def fPhon (ei : ℝ → ℝ) (f : Fit) (σ G : ℝ) : Option ℝ :=
  if σ = 0 then none else some (pairs.map (pairTerm ei f (0.5 * σ ^ 2) G)).sum

/-- One complex entry of the result; `im = none`: NaN.  Real tensors have `im = some 0`. -/
@[ext] structure Entry where
  re : ℝ
  im : Option ℝ

/-- A tensor of shape `[N_V, N_Z, N_g]`. -/
structure Out where
  nV : ℕ
  nZ : ℕ
  nG : ℕ
  at_ : ℕ → ℕ → ℕ → Entry

/-- scattering_factors_WK.py:926-938 and scattering_factors_Hybrid.py:1051-1061: the imaginary part before any clamp.  The core
part is NaN for `Z ≤ 0` (a power of a negative number, or `0 / 0`). -/
noncomputable def imagPart (core phonon : Bool) (f : Fit) (k0 : ℝ) (Z : ℤ) (σ V G : ℝ) : Option ℝ :=
  let γ := (V + 511) / 511
  let c : Option ℝ := if core then (if Z ≤ 0 then none else some (fCore k0 Z V G)) else some 0
  let p : Option ℝ := if phonon then fPhon expi f σ G else some 0
  c.bind fun c => p.map fun p => (c * exp (-0.5 * σ ^ 2 * G ^ 2) + p) * γ ^ 2 / (4 * π * k0)

/-- scattering_factors_WK.py:658-943: one entry of `scatter_factor_WK`. -/
noncomputable def wkEntry (T : ℕ → Fit) (core phonon : Bool) (ret : String) (g : ℝ) (Z : ℤ) (σ V : ℝ) : Entry :=
  let G := if ret = "ITC" then g * 2 * π else g
  let S := if ret = "ITC" then g / 2 else g / (4 * π)
  let f := T ((rowOf 98 Z).getD 0)
  let k0 := 0.5068 * sqrt (1022 * V + V * V)
  if ret = "EMsoft" then
    ⟨fReal f S * exp (-0.5 * σ ^ 2 * G ^ 2) * ((V + 511) / 511), imagPart core phonon f k0 Z σ V G⟩
  else ⟨fReal f S, some 0⟩

/-- scattering_factors_WK.py:598-943 `scatter_factor_WK`: `none` is an exception (a row outside the table, or a number of
displacements that does not fit the number of elements, line 698). -/
noncomputable def scatterWK (T : ℕ → Fit) (core phonon : Bool) (ret : String) (g : List ℝ) (Z : List ℤ) (σ V : List ℝ) :
    Option Out :=
  if Z.any (fun z => (rowOf 98 z).isNone) then none
  else if σ.length * g.length ≠ Z.length * g.length then none
  else some ⟨V.length, Z.length, g.length, fun v z k =>
    wkEntry T core phonon ret (g.getD k 0) (Z.getD z 0) (σ.getD z 0) (V.getD v 0)⟩

/-- The five pairs of parameters of one element (scattering_factors_Hybrid.py:415-423); the table has 102 rows and is a
parameter of the model. -/
structure Lob where
  a : Fin 5 → ℝ
  b : Fin 5 → ℝ

/-- scattering_factors_Hybrid.py:393-430 and scattering_factors_LVD_TCB.py:168-205 `eval_LVD_fit` at `s`. -/
noncomputable def evalLVD (f : Lob) (s : ℝ) : ℝ :=
  ∑ k, f.a k * (2 + f.b k * (2 * s) ^ 2) / (1 + f.b k * (2 * s) ^ 2) ^ 2

/-- scattering_factors_Hybrid.py:841-1076: one entry of `scatter_factor_hybrid`. -/
noncomputable def hybridEntry (T : ℕ → Fit) (L : ℕ → Lob) (core phonon : Bool) (ret : String) (g : ℝ) (Z : ℤ) (σ V : ℝ) :
    Entry :=
  let G := g * 2 * π
  let S := g / 2
  let k0 := 2 * π / wavelength (1000 * V)
  let re := evalLVD (L ((rowOf 102 Z).getD 0)) S
  if ret = "EMsoft" then
    ⟨re * exp (-0.5 * σ ^ 2 * G ^ 2) * ((V + 511) / 511),
      (imagPart core phonon (T ((rowOf 98 Z).getD 0)) k0 Z σ V G).map fun x => max x 0⟩
  else ⟨re, some 0⟩

/-- scattering_factors_Hybrid.py:762-1082 `scatter_factor_hybrid`; other conventions than the two named ones raise. -/
noncomputable def scatterHybrid (T : ℕ → Fit) (L : ℕ → Lob) (core phonon : Bool) (ret : String) (g : List ℝ) (Z : List ℤ)
    (σ V : List ℝ) : Option Out :=
  if Z.any (fun z => (rowOf 98 z).isNone) then none
  else if σ.length * g.length ≠ Z.length * g.length then none
  else if ret ≠ "EMsoft" ∧ ret ≠ "ITC" then none
  else some ⟨V.length, Z.length, g.length, fun v z k =>
    hybridEntry T L core phonon ret (g.getD k 0) (Z.getD z 0) (σ.getD z 0) (V.getD v 0)⟩

/-- scattering_factors_LVD_TCB.py:209-222 `integrand`. -/
noncomputable def integrand (f : Lob) (sx sy s M : ℝ) : ℝ :=
  evalLVD f (sqrt ((s / 2 + sx) ^ 2 + sy ^ 2)) * evalLVD f (sqrt ((s / 2 - sx) ^ 2 + sy ^ 2))
    * (1 - exp (-2 * M * (sx ^ 2 + sy ^ 2 - s ^ 2 / 4)))

/-- scattering_factors_LVD_TCB.py:394-429: the points along one axis; `none`: the `ValueError`, or `math.log` of a number that
is not positive.  `torch.linspace` and `torch.logspace` with a single step return the start. -/
noncomputable def ewaldRange (intervals : ℕ) (range : ℝ × ℝ) (sampling : String) (base eps : ℝ) : Option (List ℝ) :=
  if sampling = "linspace" then
    let n := intervals + 1 + intervals % 2
    some ((List.range n).map fun (i : ℕ) => range.1 + i * ((range.2 - range.1) / ((n - 1 : ℕ) : ℝ)))
  else if sampling = "logspace" then
    if range.1 + eps ≤ 0 ∨ range.2 ≤ 0 ∨ base ≤ 0 ∨ base = 1 then none
    else
      let n := intervals - intervals % 2
      let lo := log (range.1 + eps) / log base
      let hi := log range.2 / log base
      some (range.1 :: (List.range n).map fun (i : ℕ) => base ^ (lo + i * ((hi - lo) / ((n - 1 : ℕ) : ℝ))))
  else none

/-- scattering_factors_LVD_TCB.py:452-462: Simpson's rule along both axes. -/
noncomputable def ewaldIntegral (f : Lob) (xs : List ℝ) (s M : ℝ) : Option ℝ :=
  match Numerics.simpson (xs.map fun sx => (match Numerics.simpson (xs.map fun sy => integrand f sx sy s M) xs with
      | .ok v => v | .error _ => 0)) xs with
  | .ok v => some v
  | .error _ => none

/-- scattering_factors_LVD_TCB.py:303-482 `scatter_factor_LVD`.  Lines 473-480: `gamma` has shape `[N_V, 1, 1]` but `k0` has
shape `[N_V]`, so their quotient has shape `[N_V, 1, N_V]`; the product and the stack need `N_V = 1` or `N_V = N_g`. -/
noncomputable def scatterLVD (L : ℕ → Lob) (ret : String) (g : List ℝ) (Z : List ℤ) (σ V : List ℝ) (intervals : ℕ)
    (range : ℝ × ℝ) (sampling : String) (base eps : ℝ) : Option Out :=
  if Z.any (fun z => (rowOf 102 z).isNone) then none
  else if σ.length * g.length ≠ Z.length * g.length then none
  else
    let row := fun z : ℕ => L ((rowOf 102 (Z.getD z 0)).getD 0)
    let M := fun z : ℕ => (σ.getD z 0) ^ 2 * (8 * π ^ 2)
    let S := fun k : ℕ => g.getD k 0 / 2
    if ret = "ITC" then
      some ⟨1, Z.length, g.length, fun _ z k => ⟨evalLVD (row z) (S k), some 0⟩⟩
    else
      (ewaldRange intervals range sampling base eps).bind fun xs =>
        if V.length ≠ 1 ∧ V.length ≠ g.length then none
        else some ⟨V.length, Z.length, g.length, fun v z k =>
          let γ := 1 + V.getD v 0 * 1.9569511835738734e-03
          let k0 := 2 * π / wavelength (1000 * V.getD (if V.length = 1 then 0 else k) 0)
          let dwf := exp (-M z * S k ^ 2)
          ⟨evalLVD (row z) (S k) * dwf * γ,
            (ewaldIntegral (row z) xs (S k) (M z)).map fun v => 4 * π * (4 * v * dwf) * (γ ^ 2 / k0)⟩⟩

end Verif.Scat
