import Verif.Model.Multipole
import Mathlib.Tactic.NormNum
import Mathlib.Analysis.Complex.Norm

/-! # The multipole terms of the two images of a single lens with the source at 3/2, in exact numbers

Used only by the counterexample of C70. -/

set_option linter.unusedSimpArgs false

noncomputable section

namespace Microjax.Props

open Complex ComplexConjugate Multipole

theorem mul0 (x y : ℝ) : (x : ℂ) * (y : ℂ) = ((x * y : ℝ) : ℂ) := by push_cast; ring
theorem cmul1 (x y : ℝ) : (x : ℂ) * ((y : ℂ) * I) = ((x * y : ℝ) : ℂ) * I := by push_cast; ring
theorem cmul2 (x y : ℝ) : ((x : ℂ) * I) * (y : ℂ) = ((x * y : ℝ) : ℂ) * I := by push_cast; ring
theorem cmul3 (x y : ℝ) : ((x : ℂ) * I) * ((y : ℂ) * I) = ((-(x * y) : ℝ) : ℂ) := by
  push_cast; linear_combination (x * y : ℂ) * I_mul_I
theorem cadd (x y : ℝ) : (x : ℂ) * I + (y : ℂ) * I = ((x + y : ℝ) : ℂ) * I := by push_cast; ring
theorem cadd0 (x y : ℝ) : (x : ℂ) + (y : ℂ) = ((x + y : ℝ) : ℂ) := by push_cast; ring
theorem csub0 (x y : ℝ) : (x : ℂ) - (y : ℂ) = ((x - y : ℝ) : ℂ) := by push_cast; ring
theorem cconj (x : ℝ) : conj ((x : ℂ) * I) = ((-x : ℝ) : ℂ) * I := by
  rw [map_mul, conj_I, conj_ofReal]; push_cast; ring
theorem cconj0 (x : ℝ) : conj (x : ℂ) = (x : ℂ) := conj_ofReal x
theorem c1 : (1 : ℂ) = ((1 : ℝ) : ℂ) := by simp
theorem c2 : (2 : ℂ) = ((2 : ℝ) : ℂ) := by simp
theorem c3 : (3 : ℂ) = ((3 : ℝ) : ℂ) := by simp
theorem c4 : (4 : ℂ) = ((4 : ℝ) : ℂ) := by simp
theorem c5 : (5 : ℂ) = ((5 : ℝ) : ℂ) := by simp
theorem c6 : (6 : ℂ) = ((6 : ℝ) : ℂ) := by simp
theorem c10 : (10 : ℂ) = ((10 : ℝ) : ℂ) := by simp
theorem c12 : (12 : ℂ) = ((12 : ℝ) : ℂ) := by simp
theorem c15 : (15 : ℂ) = ((15 : ℝ) : ℂ) := by simp
theorem cim (x : ℝ) : ((x : ℂ) * I).im = x := by simp

abbrev wA : WStack := ⟨(((-1 / 4) : ℝ) : ℂ), (((1 / 4) : ℝ) : ℂ), (((-3 / 8) : ℝ) : ℂ), (((3 / 4) : ℝ) : ℂ), (((-15 / 8) : ℝ) : ℂ)⟩

theorem c70_mu0A : mu0 (((-1 / 4) : ℝ) : ℂ) = (16 / 15) := by
  simp only [mu0, Complex.norm_real]; norm_num

abbrev oA1 : Order1 := ⟨(((4 / 5) : ℝ) : ℂ), (((4 / 3) : ℝ) : ℂ) * I⟩

theorem c70_order1A : order1 wA  = oA1 := by
  simp only [order1, akl, c70_mu0A, Order1.mk.injEq, cmul1, cmul2, cmul3, cadd, cadd0, csub0, cconj, cconj0, c1, c2, c3, c4, c5, c6, c10, c12, c15, cim, mul0]
  refine ⟨?_, ?_⟩ <;> congr 1 <;> norm_num

abbrev oA2 : Order2 := ⟨(((16 / 125) : ℝ) : ℂ), (((-16 / 45) : ℝ) : ℂ) * I, (((-16 / 45) : ℝ) : ℂ)⟩

theorem c70_order2A : order2 wA oA1 = oA2 := by
  simp only [order2, akl, c70_mu0A, Order2.mk.injEq, cmul1, cmul2, cmul3, cadd, cadd0, csub0, cconj, cconj0, c1, c2, c3, c4, c5, c6, c10, c12, c15, cim, mul0]
  refine ⟨?_, ?_, ?_⟩ <;> congr 1 <;> norm_num

abbrev oA3 : Order3 := ⟨(((-288 / 3125) : ℝ) : ℂ), (((1888 / 3375) : ℝ) : ℂ) * I, (((1888 / 3375) : ℝ) : ℂ), (((-32 / 45) : ℝ) : ℂ) * I⟩

theorem c70_order3A : order3 wA oA1 oA2 = oA3 := by
  simp only [order3, akl, c70_mu0A, Order3.mk.injEq, cmul1, cmul2, cmul3, cadd, cadd0, csub0, cconj, cconj0, c1, c2, c3, c4, c5, c6, c10, c12, c15, cim, mul0]
  refine ⟨?_, ?_, ?_, ?_⟩ <;> congr 1 <;> norm_num

abbrev oA4 : Order4 := ⟨(((768 / 15625) : ℝ) : ℂ), (((-99584 / 84375) : ℝ) : ℂ) * I, (((-99584 / 84375) : ℝ) : ℂ), (((1792 / 1125) : ℝ) : ℂ) * I, (((1792 / 1125) : ℝ) : ℂ)⟩

theorem c70_order4A : order4 wA oA1 oA2 oA3 = oA4 := by
  simp only [order4, akl, c70_mu0A, Order4.mk.injEq, cmul1, cmul2, cmul3, cadd, cadd0, csub0, cconj, cconj0, c1, c2, c3, c4, c5, c6, c10, c12, c15, cim, mul0]
  refine ⟨?_, ?_, ?_, ?_, ?_⟩ <;> congr 1 <;> norm_num

abbrev oA5 : Order5 := ⟨(((13824 / 390625) : ℝ) : ℂ), (((4024832 / 1265625) : ℝ) : ℂ) * I, (((4024832 / 1265625) : ℝ) : ℂ), (((-378368 / 84375) : ℝ) : ℂ) * I, (((-378368 / 84375) : ℝ) : ℂ), (((3584 / 675) : ℝ) : ℂ) * I⟩

theorem c70_order5A : order5 wA oA1 oA2 oA3 oA4 = oA5 := by
  simp only [order5, akl, c70_mu0A, Order5.mk.injEq, cmul1, cmul2, cmul3, cadd, cadd0, csub0, cconj, cconj0, c1, c2, c3, c4, c5, c6, c10, c12, c15, cim, mul0]
  refine ⟨?_, ?_, ?_, ?_, ?_, ?_⟩ <;> congr 1 <;> norm_num

theorem c70_mu2A : mu2 oA1 oA2 oA3 = (3328 / 84375) := by
  simp only [mu2, cmul1, cmul2, cmul3, cadd, cadd0, csub0, cconj, cconj0, c1, c2, c3, c4, c5, c6, c10, c12, c15, cim, mul0]; norm_num

theorem c70_mu4A : mu4 oA1 oA2 oA3 oA4 oA5 = (944128 / 10546875) := by
  simp only [mu4, cmul1, cmul2, cmul3, cadd, cadd0, csub0, cconj, cconj0, c1, c2, c3, c4, c5, c6, c10, c12, c15, cim, mul0]; norm_num

abbrev wB : WStack := ⟨(((-4) : ℝ) : ℂ), (((-16) : ℝ) : ℂ), (((-96) : ℝ) : ℂ), (((-768) : ℝ) : ℂ), (((-7680) : ℝ) : ℂ)⟩

theorem c70_mu0B : mu0 (((-4) : ℝ) : ℂ) = (-1 / 15) := by
  simp only [mu0, Complex.norm_real]; norm_num

abbrev oB1 : Order1 := ⟨(((1 / 5) : ℝ) : ℂ), (((-1 / 3) : ℝ) : ℂ) * I⟩

theorem c70_order1B : order1 wB  = oB1 := by
  simp only [order1, akl, c70_mu0B, Order1.mk.injEq, cmul1, cmul2, cmul3, cadd, cadd0, csub0, cconj, cconj0, c1, c2, c3, c4, c5, c6, c10, c12, c15, cim, mul0]
  refine ⟨?_, ?_⟩ <;> congr 1 <;> norm_num

abbrev oB2 : Order2 := ⟨(((-16 / 125) : ℝ) : ℂ), (((16 / 45) : ℝ) : ℂ) * I, (((16 / 45) : ℝ) : ℂ)⟩

theorem c70_order2B : order2 wB oB1 = oB2 := by
  simp only [order2, akl, c70_mu0B, Order2.mk.injEq, cmul1, cmul2, cmul3, cadd, cadd0, csub0, cconj, cconj0, c1, c2, c3, c4, c5, c6, c10, c12, c15, cim, mul0]
  refine ⟨?_, ?_, ?_⟩ <;> congr 1 <;> norm_num

abbrev oB3 : Order3 := ⟨(((288 / 3125) : ℝ) : ℂ), (((-1888 / 3375) : ℝ) : ℂ) * I, (((-1888 / 3375) : ℝ) : ℂ), (((32 / 45) : ℝ) : ℂ) * I⟩

theorem c70_order3B : order3 wB oB1 oB2 = oB3 := by
  simp only [order3, akl, c70_mu0B, Order3.mk.injEq, cmul1, cmul2, cmul3, cadd, cadd0, csub0, cconj, cconj0, c1, c2, c3, c4, c5, c6, c10, c12, c15, cim, mul0]
  refine ⟨?_, ?_, ?_, ?_⟩ <;> congr 1 <;> norm_num

abbrev oB4 : Order4 := ⟨(((-768 / 15625) : ℝ) : ℂ), (((99584 / 84375) : ℝ) : ℂ) * I, (((99584 / 84375) : ℝ) : ℂ), (((-1792 / 1125) : ℝ) : ℂ) * I, (((-1792 / 1125) : ℝ) : ℂ)⟩

theorem c70_order4B : order4 wB oB1 oB2 oB3 = oB4 := by
  simp only [order4, akl, c70_mu0B, Order4.mk.injEq, cmul1, cmul2, cmul3, cadd, cadd0, csub0, cconj, cconj0, c1, c2, c3, c4, c5, c6, c10, c12, c15, cim, mul0]
  refine ⟨?_, ?_, ?_, ?_, ?_⟩ <;> congr 1 <;> norm_num

abbrev oB5 : Order5 := ⟨(((-13824 / 390625) : ℝ) : ℂ), (((-4024832 / 1265625) : ℝ) : ℂ) * I, (((-4024832 / 1265625) : ℝ) : ℂ), (((378368 / 84375) : ℝ) : ℂ) * I, (((378368 / 84375) : ℝ) : ℂ), (((-3584 / 675) : ℝ) : ℂ) * I⟩

theorem c70_order5B : order5 wB oB1 oB2 oB3 oB4 = oB5 := by
  simp only [order5, akl, c70_mu0B, Order5.mk.injEq, cmul1, cmul2, cmul3, cadd, cadd0, csub0, cconj, cconj0, c1, c2, c3, c4, c5, c6, c10, c12, c15, cim, mul0]
  refine ⟨?_, ?_, ?_, ?_, ?_, ?_⟩ <;> congr 1 <;> norm_num

theorem c70_mu2B : mu2 oB1 oB2 oB3 = (-3328 / 84375) := by
  simp only [mu2, cmul1, cmul2, cmul3, cadd, cadd0, csub0, cconj, cconj0, c1, c2, c3, c4, c5, c6, c10, c12, c15, cim, mul0]; norm_num

theorem c70_mu4B : mu4 oB1 oB2 oB3 oB4 oB5 = (-944128 / 10546875) := by
  simp only [mu4, cmul1, cmul2, cmul3, cadd, cadd0, csub0, cconj, cconj0, c1, c2, c3, c4, c5, c6, c10, c12, c15, cim, mul0]; norm_num

end Microjax.Props
