import Mathlib.Data.Real.Archimedean

/-! The tables of `airfoil::SC1095`, include/mini/aircraft/airfoil.hpp:41-118, in units of 1e-5. -/

namespace MiniCFD.Rotor

/-- `SC1095::lift_`, airfoil.hpp:41-79, times 100000. -/
def liftScaled : List Int := [
  0, 25667, 51330, 77000, 75500,
  74000, 72500, 71000, 69500, 68000,
  66500, 65000, 72500, 80000, 87500,
  95000, 91750, 88600, 85250, 82000,
  78750, 75500, 72250, 69000, 65750,
  62500, 59250, 56000, 52750, 49500,
  46250, 43000, 39750, 36500, 33250,
  30000, 26750, 23500, 20250, 17000,
  13750, 10500, 7250, 4000, 750,
  -2500, -5750, -9000, -12250, -15500,
  -18750, -22000, -25250, -28500, -31750,
  -35000, -38250, -41500, -44750, -48000,
  -51250, -54500, -57750, -61000, -64250,
  -67500, -70750, -74000, -77250, -80500,
  -83570, -87000, -90250, -93500, -96750,
  -100000, -99600, -99200, -98800, -98400,
  -98000, -97600, -97200, -107000, -72400,
  -37000, -19000, -39000, -46000, -19000,
  3000, 24300, 46000, 67000, 89000,
  110000, 125000, 110000, 98000, 98280,
  98560, 98840, 99120, 99400, 99700,
  100000, 96750, 93500, 90250, 87000,
  83750, 80500, 77250, 74000, 70750,
  67500, 64250, 61000, 57750, 54800,
  51250, 48000, 44750, 41500, 38250,
  35000, 31750, 28500, 25250, 22000,
  18750, 15500, 12250, 9000, 5750,
  2500, -750, -4000, -7250, -10500,
  -13750, -17000, -20250, -23600, -26750,
  -30000, -33250, -36500, -39750, -43000,
  -46250, -49500, -52750, -56000, -59250,
  -62500, -65750, -69000, -72250, -75500,
  -78750, -82000, -85250, -88500, -91750,
  -95000, -87500, -80000, -72500, -65000,
  -66500, -68000, -69500, -71000, -72500,
  -74000, -75500, -77000, -51330, -25667,
  0]

/-- `SC1095::lift_`, airfoil.hpp:41-79. -/
noncomputable def liftTable : List ℝ := liftScaled.map fun n : Int => ((n : ℝ) / 100000 : ℝ)

/-- `SC1095::drag_`, airfoil.hpp:80-118, times 100000. -/
def dragScaled : List Int := [
  0, 36700, 73300, 110000, 106500,
  103000, 99500, 96000, 92000, 88000,
  84000, 80000, 76000, 72000, 68000,
  64000, 68750, 73500, 78250, 83000,
  87875, 92750, 97625, 102500, 107375,
  112250, 117125, 122000, 126875, 131750,
  136625, 141500, 146375, 151250, 156125,
  161000, 166000, 171000, 176000, 181000,
  185750, 190500, 195250, 200000, 202625,
  205250, 207875, 210500, 209875, 209250,
  208625, 208000, 205500, 203000, 200500,
  198000, 192875, 187750, 182625, 177500,
  170125, 162750, 155375, 148000, 140750,
  133500, 126250, 119000, 111750, 104500,
  97250, 90000, 83250, 76500, 69750,
  63000, 56200, 48800, 41700, 34000,
  26700, 19500, 12000, 4500, 1800,
  1200, 800, 775, 750, 750,
  750, 800, 850, 900, 1100,
  1700, 2600, 14500, 23000, 29300,
  34500, 40000, 45500, 50700, 56000,
  63000, 69750, 76500, 83250, 90000,
  97250, 104500, 111750, 119000, 126250,
  133500, 140750, 148000, 155375, 162750,
  170125, 177500, 182625, 187750, 192875,
  198000, 200500, 203000, 205500, 208000,
  208625, 209250, 209875, 210500, 207875,
  205250, 202625, 200000, 195250, 190500,
  185750, 181000, 176000, 171000, 166000,
  161000, 156125, 151250, 146375, 141500,
  136625, 131750, 126875, 122000, 117125,
  112250, 107375, 102500, 97625, 92750,
  87875, 83000, 78250, 73500, 68750,
  64000, 68000, 72000, 76000, 80000,
  84000, 88000, 92000, 96000, 99600,
  103000, 106500, 110000, 73300, 36700,
  0]

/-- `SC1095::drag_`, airfoil.hpp:80-118. -/
noncomputable def dragTable : List ℝ := dragScaled.map fun n : Int => ((n : ℝ) / 100000 : ℝ)

end MiniCFD.Rotor
