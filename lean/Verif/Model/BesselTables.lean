import Verif.Model.Special
import Mathlib.Data.Rat.Cast.CharZero

/-!
# The coefficient tables of `fastlens/special.py`

The literals of the source, read as exact decimals (the rounding of a literal to float64 is not modelled).
-/

noncomputable section

namespace Microjax.Special

/-- `special.py` 236-241 `RP1`. -/
def tableRP1 : List ℚ :=
  [-8.99971225705559398224e8, 4.52228297998194034323e11, -7.27494245221818276015e13, 3.68295732863852883286e15]

/-- `special.py` 242-252 `RQ1`. -/
def tableRQ1 : List ℚ :=
  [1.0, 6.20836478118054335476e2, 2.56987256757748830383e5, 8.35146791431949253037e7, 2.21511595479792499675e10,
    4.74914122079991414898e12, 7.84369607876235854894e14, 8.95222336184627338078e16, 5.32278620332680085395e18]

/-- `special.py` 254-262 `PP1`. -/
def tablePP1 : List ℚ :=
  [7.62125616208173112003e-4, 7.31397056940917570436e-2, 1.12719608129684925192e0, 5.11207951146807644818e0,
    8.42404590141772420927e0, 5.21451598682361504063e0, 1.00000000000000000254e0]

/-- `special.py` 263-271 `PQ1`. -/
def tablePQ1 : List ℚ :=
  [5.71323128072548699714e-4, 6.88455908754495404082e-2, 1.10514232634061696926e0, 5.07386386128601488557e0,
    8.39985554327604159757e0, 5.20982848682361821619e0, 9.99999999999999997461e-1]

/-- `special.py` 273-282 `QP1`. -/
def tableQP1 : List ℚ :=
  [5.10862594750176621635e-2, 4.98213872951233449420e0, 7.58238284132545283818e1, 3.66779609360150777800e2,
    7.10856304998926107277e2, 5.97489612400613639965e2, 2.11688757100572135698e2, 2.52070205858023719784e1]

/-- `special.py` 283-292 `QQ1`. -/
def tableQQ1 : List ℚ :=
  [1.0, 7.42373277035675149943e1, 1.05644886038262816351e3, 4.98641058337653607651e3, 9.56231892404756170795e3,
    7.99704160447350683650e3, 2.82619278517639096600e3, 3.36093607810698293419e2]

/-- `special.py` 313 `Z1`. -/
def constZ1 : ℚ := 1.46819706421238932572e1

/-- `special.py` 314 `Z2`. -/
def constZ2 : ℚ := 4.92184563216946036703e1

/-- `special.py` 315 `PIO4`. -/
def constPIO4 : ℚ := 0.78539816339744830962

/-- `special.py` 316 `THPIO4`. -/
def constTHPIO4 : ℚ := 2.35619449019234492885

/-- `special.py` 317 `SQ2OPI`. -/
def constSQ2OPI : ℚ := 0.79788456080286535588

/-- `special.py` 321-329 `PP0`. -/
def tablePP0 : List ℚ :=
  [7.96936729297347051624e-4, 8.28352392107440799803e-2, 1.23953371646414299388e0, 5.44725003058768775090e0,
    8.74716500199817011941e0, 5.30324038235394892183e0, 9.99999999999999997821e-1]

/-- `special.py` 330-338 `PQ0`. -/
def tablePQ0 : List ℚ :=
  [9.24408810558863637013e-4, 8.56288474354474431428e-2, 1.25352743901058953537e0, 5.47097740330417105182e0,
    8.76190883237069594232e0, 5.30605288235394617618e0, 1.00000000000000000218e0]

/-- `special.py` 340-349 `QP0`. -/
def tableQP0 : List ℚ :=
  [-1.13663838898469149931e-2, -1.28252718670509318512e0, -1.95539544257735972385e1, -9.32060152123768231369e1,
    -1.77681167980488050595e2, -1.47077505154951170175e2, -5.14105326766599330220e1, -6.05014350600728481186e0]

/-- `special.py` 350-359 `QQ0`. -/
def tableQQ0 : List ℚ :=
  [1.0, 6.43178256118178023184e1, 8.56430025976980587198e2, 3.88240183605401609683e3, 7.24046774195652478189e3,
    5.93072701187316984827e3, 2.06209331660327847417e3, 2.42005740240291393179e2]

/-- `special.py` 381 `DR10`. -/
def constDR10 : ℚ := 5.78318596294678452118e0

/-- `special.py` 382 `DR20`. -/
def constDR20 : ℚ := 3.04712623436620863991e1

/-- `special.py` 384-389 `RP0`. -/
def tableRP0 : List ℚ :=
  [-4.79443220978201773821e9, 1.95617491946556577543e12, -2.49248344360967716204e14, 9.70862251047306323952e15]

/-- `special.py` 390-400 `RQ0`. -/
def tableRQ0 : List ℚ :=
  [1.0, 4.99563147152651017219e2, 1.73785401676374683123e5, 4.84409658339962045305e7, 1.11855537045356834862e10,
    2.11277520115489217587e12, 3.10518229857422583814e14, 3.18121955943204943306e16, 1.71086294081043136091e18]

/-- `special.py` 236-400: the tables and constants used by `j0_`, `j1_` (`YP*`, `YQ*` are not used by the code). -/
def cephes : BesselTables where
  RP1 := tableRP1.map (fun q : ℚ => (q : ℝ))
  RQ1 := tableRQ1.map (fun q : ℚ => (q : ℝ))
  PP1 := tablePP1.map (fun q : ℚ => (q : ℝ))
  PQ1 := tablePQ1.map (fun q : ℚ => (q : ℝ))
  QP1 := tableQP1.map (fun q : ℚ => (q : ℝ))
  QQ1 := tableQQ1.map (fun q : ℚ => (q : ℝ))
  Z1 := (constZ1 : ℚ)
  Z2 := (constZ2 : ℚ)
  PIO4 := (constPIO4 : ℚ)
  THPIO4 := (constTHPIO4 : ℚ)
  SQ2OPI := (constSQ2OPI : ℚ)
  PP0 := tablePP0.map (fun q : ℚ => (q : ℝ))
  PQ0 := tablePQ0.map (fun q : ℚ => (q : ℝ))
  QP0 := tableQP0.map (fun q : ℚ => (q : ℝ))
  QQ0 := tableQQ0.map (fun q : ℚ => (q : ℝ))
  DR10 := (constDR10 : ℚ)
  DR20 := (constDR20 : ℚ)
  RP0 := tableRP0.map (fun q : ℚ => (q : ℝ))
  RQ0 := tableRQ0.map (fun q : ℚ => (q : ℝ))

end Microjax.Special
