import Verif.Model.Svi

/-!
# Model of `tf_quant_finance/experimental/svi/calibration.py`

Real numbers, one smile. The optimizer is an arbitrary function of the loss function and the initial position. An infinite coordinate of a
position (the logarithm of zero) is `none`; a coordinate that is not a number is replaced by zero, as in L183-185. The arguments of
`tf.math.sigmoid` are real, and it is `1 / (1 + exp (-x))`.
-/

namespace Model

/-- One quote of a smile. -/
structure SviQuote where
  strike : ℝ
  volatility : ℝ
  weight : ℝ := 1

/-- The unconstrained parameters of L281-291. -/
structure SviPosition where
  logMinVar : Option ℝ
  logB : Option ℝ
  r : Option ℝ
  m : ℝ
  logSigma : Option ℝ

/-- `tf.math.log`, with 0 in place of a value that is not a number (L183-185). -/
noncomputable def logOrZero (x : ℝ) : Option ℝ := if x < 0 then some 0 else if x = 0 then none else some (Real.log x)

/-- `_raw_svi_to_unconstrained` L265-291 followed by L183-185. -/
noncomputable def sviToUnconstrained (p : SviParameters) : SviPosition where
  logMinVar := if 1 - p.rho ^ 2 < 0 then some 0 else logOrZero (p.a + p.b * p.sigma * Real.sqrt (1 - p.rho ^ 2))
  logB := logOrZero p.b
  r := if p.rho < -1 ∨ 1 < p.rho then some 0 else if p.rho = -1 ∨ p.rho = 1 then none
    else some (Real.log (1 + p.rho) - Real.log (1 + -p.rho))
  m := p.m
  logSigma := logOrZero p.sigma

/-- `_unconstrained_to_raw_svi` L294-315, at a finite position. -/
noncomputable def sviFromUnconstrained (logMinVar logB r m logSigma : ℝ) : SviParameters :=
  let b := Real.exp logB
  let rho := 2 * (1 / (1 + Real.exp (-r))) - 1
  let sigma := Real.exp logSigma
  { a := Real.exp logMinVar - b * sigma * Real.sqrt (1 - rho ^ 2), b := b, rho := rho, m := m, sigma := sigma }

/-- L167-171: log-moneyness and total variance of the quotes. -/
noncomputable def sviMoneyness (forward : ℝ) (quotes : List SviQuote) : List ℝ := quotes.map fun q => Real.log (q.strike / forward)
noncomputable def sviTargets (expiry : ℝ) (quotes : List SviQuote) : List ℝ := quotes.map fun q => q.volatility ^ 2 * expiry

/-- L188-199: the loss at given parameters. -/
noncomputable def sviLoss (forward expiry : ℝ) (quotes : List SviQuote) (p : SviParameters) : ℝ :=
  (quotes.map fun q =>
    let modelVariance := match sviTotalVariance p (some (Real.log (q.strike / forward))) none none with
      | .ok w => w
      | .error _ => 0
    q.weight * (Real.sqrt (modelVariance / expiry) - q.volatility) ^ 2).sum

/-- Mean over the quotes. -/
noncomputable def sviMean (l : List ℝ) : ℝ := l.sum / l.length

/-- `tf.argmin`: the first index of the least entry. -/
noncomputable def argminFrom (best : ℝ) (bestIndex index : Nat) : List ℝ → Nat
  | [] => bestIndex
  | x :: xs => if x < best then argminFrom x index (index + 1) xs else argminFrom best bestIndex (index + 1) xs

noncomputable def argmin : List ℝ → Nat
  | [] => 0
  | x :: xs => argminFrom x 0 1 xs

/-- `_estimate_initial_position` L215-262; `none` if the regression is `0 / 0`, which makes `a` and `b` not a number. -/
noncomputable def sviEstimate (logMoneyness totalVariance : List ℝ) : Option (ℝ × ℝ) × ℝ × ℝ × ℝ :=
  let m := logMoneyness.getD (argmin totalVariance) 0
  let sigma : ℝ := 0.5
  let rho : ℝ := 0
  let y := totalVariance
  let x := logMoneyness.map fun k => Real.sqrt ((k - m) ^ 2 + sigma ^ 2)
  let ex := sviMean x
  let ey := sviMean y
  let exy := sviMean (List.zipWith (fun u v => u * v) x y)
  let varX := sviMean (x.map fun u => (u - ex) ^ 2)
  if varX = 0 then (none, rho, m, sigma) else
    let b := (exy - ex * ey) / varX
    let a := ey - b * ex
    (some (a, b), rho, m, sigma)

/-- L176-185: the first position of the optimizer. -/
noncomputable def sviStart (forward expiry : ℝ) (quotes : List SviQuote) (initial : Option SviParameters) : SviPosition :=
  match initial with
  | some p => sviToUnconstrained p
  | none =>
    match sviEstimate (sviMoneyness forward quotes) (sviTargets expiry quotes) with
    | (some (a, b), rho, m, sigma) => sviToUnconstrained { a := a, b := b, rho := rho, m := m, sigma := sigma }
    | (none, rho, m, sigma) =>
      { sviToUnconstrained { a := 1, b := 1, rho := rho, m := m, sigma := sigma } with logMinVar := some 0, logB := some 0 }

/-- `calibration` L27-212: the calibrated parameters, for an optimizer that returns the five coordinates of a position. -/
noncomputable def sviCalibration (optimizer : (ℝ → ℝ → ℝ → ℝ → ℝ → ℝ) → SviPosition → ℝ × ℝ × ℝ × ℝ × ℝ)
    (forward expiry : ℝ) (quotes : List SviQuote) (initial : Option SviParameters) : SviParameters :=
  let loss := fun u0 u1 u2 u3 u4 => sviLoss forward expiry quotes (sviFromUnconstrained u0 u1 u2 u3 u4)
  let (u0, u1, u2, u3, u4) := optimizer loss (sviStart forward expiry quotes initial)
  sviFromUnconstrained u0 u1 u2 u3 u4

end Model
