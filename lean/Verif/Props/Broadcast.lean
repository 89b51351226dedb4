import Verif.Model.Broadcast
import Verif.Spec.Broadcast
import Verif.Props.Caustics
import Verif.Props.LimbTrace

/-!
# C115: lens parameters given as arrays
-/

noncomputable section

namespace Microjax.Props

open Complex ComplexConjugate Microjax.PointSource Microjax.Spec Microjax.Broadcast

/-! ## Broadcasting of two shapes -/

theorem shape_ext {r r' : List ℕ} (hl : r.length = r'.length) (h : ∀ k, dim r k = dim r' k) : r = r' := by
  refine List.ext_getElem hl fun k h1 h2 => ?_
  have := h k
  simpa [dim, h1, h2] using this

theorem dim_cons_zero (a : ℕ) (s : List ℕ) : dim (a :: s) 0 = a := rfl
theorem dim_cons_succ (a : ℕ) (s : List ℕ) (k : ℕ) : dim (a :: s) (k + 1) = dim s k := rfl
theorem dim_nil (k : ℕ) : dim [] k = 1 := by simp [dim]
theorem dim_ge {s : List ℕ} {k : ℕ} (h : s.length ≤ k) : dim s k = 1 := by
  simp [dim, List.getElem?_eq_none h]

theorem bdims_nil_right (s : List ℕ) : bdims s [] = some s := by cases s <;> rfl

theorem bdims_some {s t r : List ℕ} (h : bdims s t = some r) :
    (∀ k, dim s k = 1 ∨ dim t k = 1 ∨ dim s k = dim t k) ∧ r.length = max s.length t.length ∧
      ∀ k, dim r k = if dim s k = 1 then dim t k else dim s k := by
  induction s generalizing t r with
  | nil =>
    simp only [bdims, Option.some.injEq] at h
    subst h
    exact ⟨fun k => Or.inl (dim_nil k), by simp, fun k => by simp [dim_nil]⟩
  | cons a s ih =>
    cases t with
    | nil =>
      simp only [bdims, Option.some.injEq] at h
      subst h
      refine ⟨fun k => Or.inr (Or.inl (dim_nil k)), by simp, fun k => ?_⟩
      split_ifs with h1
      · rw [h1, dim_nil]
      · rfl
    | cons b t =>
      simp only [bdims] at h
      split_ifs at h with h1 h2
      · obtain ⟨r', hr', rfl⟩ := Option.map_eq_some_iff.mp h
        obtain ⟨i1, i2, i3⟩ := ih hr'
        refine ⟨fun k => ?_, by simp [i2], fun k => ?_⟩
        · cases k with
          | zero => exact Or.inl h1
          | succ k => exact i1 k
        · cases k with
          | zero => simp [dim_cons_zero, h1]
          | succ k => exact i3 k
      · obtain ⟨r', hr', rfl⟩ := Option.map_eq_some_iff.mp h
        obtain ⟨i1, i2, i3⟩ := ih hr'
        refine ⟨fun k => ?_, by simp [i2], fun k => ?_⟩
        · cases k with
          | zero => exact Or.inr h2
          | succ k => exact i1 k
        · cases k with
          | zero => simp [dim_cons_zero, h1]
          | succ k => exact i3 k

theorem bdims_exists {s t : List ℕ} (h : ∀ k, dim s k = 1 ∨ dim t k = 1 ∨ dim s k = dim t k) : ∃ r, bdims s t = some r := by
  induction s generalizing t with
  | nil => exact ⟨t, rfl⟩
  | cons a s ih =>
    cases t with
    | nil => exact ⟨_, rfl⟩
    | cons b t =>
      obtain ⟨r, hr⟩ := ih (t := t) fun k => h (k + 1)
      have h0 := h 0
      simp only [dim_cons_zero] at h0
      simp only [bdims]
      split_ifs with h1 h2
      · exact ⟨_, by rw [hr]; rfl⟩
      · exact ⟨_, by rw [hr]; rfl⟩
      · exact absurd (h0.resolve_left h1) h2

theorem bdims_iff (s t r : List ℕ) : bdims s t = some r ↔
    (∀ k, dim s k = 1 ∨ dim t k = 1 ∨ dim s k = dim t k) ∧ r.length = max s.length t.length ∧
      ∀ k, dim r k = if dim s k = 1 then dim t k else dim s k := by
  refine ⟨bdims_some, fun ⟨h1, h2, h3⟩ => ?_⟩
  obtain ⟨r', hr'⟩ := bdims_exists h1
  obtain ⟨-, i2, i3⟩ := bdims_some hr'
  rw [hr', shape_ext (i2.trans h2.symm) fun k => (i3 k).trans (h3 k).symm]

/-- The shape `t` is broadcast into `r`. -/
def Into (t r : List ℕ) : Prop := t.length ≤ r.length ∧ ∀ k, dim t k = 1 ∨ dim t k = dim r k

theorem Into.refl (r : List ℕ) : Into r r := ⟨le_rfl, fun _ => Or.inr rfl⟩

theorem Into.trans {a b c : List ℕ} (h : Into a b) (h' : Into b c) : Into a c :=
  ⟨h.1.trans h'.1, fun k => by
    rcases h.2 k with h1 | h1
    · exact Or.inl h1
    · rcases h'.2 k with h2 | h2
      · exact Or.inl (h1.trans h2)
      · exact Or.inr (h1.trans h2)⟩

theorem into_left {s t r : List ℕ} (h : bdims s t = some r) : Into s r := by
  obtain ⟨-, h2, h3⟩ := bdims_some h
  refine ⟨by rw [h2]; exact le_max_left _ _, fun k => ?_⟩
  by_cases h1 : dim s k = 1
  · exact Or.inl h1
  · right; rw [h3, if_neg h1]

theorem into_right {s t r : List ℕ} (h : bdims s t = some r) : Into t r := by
  obtain ⟨h1, h2, h3⟩ := bdims_some h
  refine ⟨by rw [h2]; exact le_max_right _ _, fun k => ?_⟩
  rw [h3]
  rcases h1 k with h | h | h
  · right; rw [if_pos h]
  · exact Or.inl h
  · right; split_ifs <;> simp [h]

theorem bdims_into {t r : List ℕ} (h : Into t r) : bdims r t = some r := by
  refine (bdims_iff _ _ _).mpr ⟨fun k => ?_, by rw [max_eq_left h.1], fun k => ?_⟩
  · rcases h.2 k with h | h
    · exact Or.inr (Or.inl h)
    · exact Or.inr (Or.inr h.symm)
  · split_ifs with h1
    · rcases h.2 k with h2 | h2
      · rw [h1, h2]
      · exact h2.symm
    · rfl

theorem into_append {t r : List ℕ} (h : Into t r) (n : ℕ) : Into t (r ++ [n]) := by
  refine ⟨by have := h.1; simp; omega, fun k => ?_⟩
  by_cases hk : k < r.length
  · have : dim (r ++ [n]) k = dim r k := by simp [dim, List.getElem?_append_left hk]
    rw [this]; exact h.2 k
  · exact Or.inl (dim_ge (by have := h.1; omega))

theorem map2_eq {α β γ : Type} (f : α → β → γ) (x : Arr α) (y : Arr β) {r : List ℕ} (h : bdims x.shape y.shape = some r) :
    map2 f x y = .ok ⟨r, fun i => f (x.read i) (y.read i)⟩ := by
  simp [map2, h]

theorem map2_none {α β γ : Type} (f : α → β → γ) (x : Arr α) (y : Arr β) (h : bdims x.shape y.shape = none) :
    ∃ e, map2 f x y = .error e :=
  ⟨.valueError "Incompatible shapes for broadcasting", by simp only [map2, h]⟩

/-- Reading an array through a shape into which its own is broadcast. -/
theorem read_norm {α : Type} (x : Arr α) (r : List ℕ) (h : Into x.shape r) (i : ℕ → ℕ) :
    x.read (fun k => if dim r k = 1 then 0 else i k) = x.read i := by
  unfold Arr.read
  congr 1
  funext k
  by_cases h1 : dim x.shape k = 1
  · simp [h1]
  · have h2 : dim r k ≠ 1 := by
      intro h2
      rcases h.2 k with h3 | h3
      · exact h1 h3
      · exact h1 (h3.trans h2)
    simp [h1, h2]

theorem read_mk2 {α β γ : Type} (f : α → β → γ) (x : Arr α) (y : Arr β) (r : List ℕ) (hx : Into x.shape r)
    (hy : Into y.shape r) (i : ℕ → ℕ) :
    (⟨r, fun i => f (x.read i) (y.read i)⟩ : Arr γ).read i = f (x.read i) (y.read i) := by
  show f (x.read fun k => if dim r k = 1 then 0 else i k) (y.read fun k => if dim r k = 1 then 0 else i k) = _
  rw [read_norm x r hx, read_norm y r hy]

/-! ## Reshaping to the same shape -/

theorem unflat_flat (s : List ℕ) (i : ℕ → ℕ) (h : InRange s i) (k : ℕ) (hk : k < s.length) : unflat s (flat s i) k = i k := by
  induction s generalizing i k with
  | nil => simp at hk
  | cons d s ih =>
    have h0 : i 0 < d := h 0 (by simp)
    have hs : InRange s fun k => i (k + 1) := fun k hk => h (k + 1) (by simpa using hk)
    cases k with
    | zero => simp only [unflat, flat]; rw [Nat.add_mul_mod_self_left, Nat.mod_eq_of_lt h0]
    | succ k =>
      simp only [unflat, flat]
      rw [Nat.add_mul_div_left _ _ (by omega), Nat.div_eq_of_lt h0, zero_add]
      exact ih _ hs k (by simpa using hk)

theorem unflat_ge (s : List ℕ) (m k : ℕ) (hk : s.length ≤ k) : unflat s m k = 0 := by
  induction s generalizing m k with
  | nil => rfl
  | cons d s ih =>
    cases k with
    | zero => simp at hk
    | succ k => exact ih _ k (by simpa using hk)

theorem read_reshape_same {α : Type} (x y : Arr α) (h : reshape x.shape x = .ok y) (i : ℕ → ℕ) (hi : InRange x.shape i) :
    y.shape = x.shape ∧ y.read i = x.read i := by
  simp only [reshape, if_true, Except.ok.injEq] at h
  subst h
  refine ⟨rfl, ?_⟩
  show x.get (unflat x.shape (flat x.shape fun k => if dim x.shape k = 1 then 0 else i k)) = x.get _
  congr 1
  funext k
  have hr : InRange x.shape fun k => if dim x.shape k = 1 then 0 else i k := by
    intro k hk
    have := hi k hk
    show (if dim x.shape k = 1 then 0 else i k) < dim x.shape k
    split_ifs with h
    · omega
    · exact this
  by_cases hk : k < x.shape.length
  · rw [unflat_flat _ _ hr k hk]
  · rw [unflat_ge _ _ _ (by omega), if_pos (dim_ge (by omega))]

/-! ## Roots on the trailing axis, moved to the front, summed -/

theorem range_sum_getD (l : List ℂ) (f : ℂ → ℝ) (n : ℕ) (h : l.length = n) :
    ((List.range n).map fun j => f (l.getD j 0)).sum = (l.map f).sum := by
  subst h
  congr 1
  refine List.ext_getElem (by simp) fun k h1 h2 => ?_
  have : k < l.length := by simpa using h1
  simp [this]

/-- The index that `moveaxis` and the sum over the leading axis produce. -/
theorem magOf_eq (leq : MidParams → ℂ → ℂ) (det : MidParams → ℂ → ℝ) (tol : ℝ) (p : Arr MidParams) (w z : Arr ℂ)
    (n : ℕ) (hz : z.shape = w.shape ++ [n]) (hp : Into p.shape w.shape)
    (Z : (ℕ → ℕ) → List ℂ) (hlen : ∀ i, (Z i).length = n)
    (hread : ∀ i, ∀ j < n, z.read (fun k => if k = w.shape.length then j else i k) = (Z i).getD j 0) :
    ∃ r, magOf leq det tol p w z = .ok r ∧ r.shape = w.shape ∧
      ∀ i, InRange w.shape i →
        r.read i = sumMag (det (p.read i)) (withMask (leq (p.read i)) tol (w.read i) (Z i)) := by
  have hzw : Into w.shape z.shape := hz ▸ into_append (Into.refl _) n
  have hzp : Into p.shape z.shape := hp.trans hzw
  have b1 : bdims z.shape p.shape = some z.shape := bdims_into hzp
  have b2 : bdims z.shape w.shape = some z.shape := bdims_into hzw
  have b3 : bdims z.shape z.shape = some z.shape := bdims_into (Into.refl _)
  simp only [magOf]
  rw [map2_eq _ z p b1, map2_eq (fun z p => det p z) z p b1]
  set y : Arr ℂ := ⟨z.shape, fun i => leq (p.read i) (z.read i)⟩ with hy
  set d : Arr ℝ := ⟨z.shape, fun i => det (p.read i) (z.read i)⟩ with hd
  simp only [bind, Except.bind]
  rw [map2_eq _ y w (show bdims y.shape w.shape = some z.shape from b2)]
  set mk : Arr Bool := ⟨z.shape, fun i => decide (‖y.read i - w.read i‖ < tol)⟩ with hmk
  simp only
  rw [map2_eq _ d mk (show bdims d.shape mk.shape = some z.shape from b3)]
  simp only
  set mag : Arr ℝ := ⟨z.shape, fun i => (1 / |d.read i|) * (if mk.read i then 1 else 0)⟩ with hmag
  have hs : (sumFirst mag).shape = w.shape := by simp [sumFirst, hmag, hz]
  have hre : reshape w.shape (sumFirst mag) = reshape (sumFirst mag).shape (sumFirst mag) := by rw [hs]
  rw [hre]
  obtain ⟨r, hr⟩ : ∃ r, reshape (sumFirst mag).shape (sumFirst mag) = .ok r := by
    simp only [reshape, if_true]; exact ⟨_, rfl⟩
  have hrs : r.shape = w.shape := by
    simp only [reshape, if_true, Except.ok.injEq] at hr
    rw [← hr, ← hs]
  refine ⟨r, hr, hrs, fun i hi => ?_⟩
  rw [(read_reshape_same _ _ hr i (by rw [hs]; exact hi)).2]
  have hlast : mag.shape.getLastD 1 = n := by simp [hmag, hz]
  have hlen' : mag.shape.length - 1 = w.shape.length := by simp [hmag, hz]
  have hsum : (sumFirst mag).read i = ((List.range n).map fun j =>
      mag.read fun k => if k = w.shape.length then j else if dim w.shape k = 1 then 0 else i k).sum := by
    show ((List.range (mag.shape.getLastD 1)).map _).sum = _
    rw [hlast, hlen', hs]
  rw [hsum, sumMag, withMask, List.map_map]
  rw [← range_sum_getD _ _ n (hlen i)]
  refine congrArg List.sum (List.map_congr_left fun j hj => ?_)
  have hjn : j < n := List.mem_range.mp hj
  set i' : ℕ → ℕ := fun k => if k = w.shape.length then j else if dim w.shape k = 1 then 0 else i k with hi'
  set i'' : ℕ → ℕ := fun k => if k = w.shape.length then j else i k with hi''
  have hnorm : ∀ {α : Type} (x : Arr α), Into x.shape z.shape → x.read i' = x.read i'' := by
    intro α x hx
    unfold Arr.read
    congr 1
    funext k
    split_ifs with h1
    · rfl
    · simp only [hi', hi'']
      split_ifs with h2 h3
      · rfl
      · exfalso
        rcases hx.2 k with h | h
        · exact h1 h
        · apply h1; rw [h]
          by_cases hk : k < w.shape.length
          · rw [hz]; simpa [dim, List.getElem?_append_left hk] using h3
          · exact dim_ge (by rw [hz]; simp; omega)
      · rfl
  have hfull : ∀ {α : Type} (x : Arr α), Into x.shape w.shape → x.read i'' = x.read i := by
    intro α x hx
    unfold Arr.read
    congr 1
    funext k
    split_ifs with h1
    · rfl
    · simp only [hi'']
      rw [if_neg]
      rintro rfl
      exact h1 (dim_ge hx.1)
  have e1 : d.read i' = det (p.read i) ((Z i).getD j 0) := by
    rw [hnorm d (Into.refl _), hd, read_mk2 (fun z p => det p z) z p _ (Into.refl _) hzp, hfull p hp, hread i j hjn]
  have e2 : mk.read i' = decide (‖leq (p.read i) ((Z i).getD j 0) - w.read i‖ < tol) := by
    rw [hnorm mk (Into.refl _), hmk, read_mk2 (fun y w => decide (‖y - w‖ < tol)) y w _ (Into.refl _) hzw, hfull w (Into.refl _),
      hy, read_mk2 (fun z p => leq p z) z p _ (Into.refl _) hzp, hfull p hp, hread i j hjn]
  rw [hmag, read_mk2 (fun (d : ℝ) (m : Bool) => (1 / |d|) * (if m then 1 else 0)) d mk _ (Into.refl _) (Into.refl _), e1, e2]
  simp

theorem read_moveLastFirst {α : Type} (x : Arr α) (n : ℕ) (S : List ℕ) (hn : n ≠ 1) (hx : x.shape = n :: S) (i : ℕ → ℕ) (j : ℕ) :
    (moveLastFirst x).read (fun k => if k = S.length then j else i k) = x.read fun k => if k = 0 then j else i (k - 1) := by
  have hsh : (moveLastFirst x).shape = S ++ [n] := by simp [moveLastFirst, hx]
  have hl : x.shape.length - 1 = S.length := by simp [hx]
  unfold Arr.read
  rw [hsh]
  show x.read _ = _
  unfold Arr.read
  congr 1
  funext k
  by_cases h1 : dim x.shape k = 1
  · simp [h1]
  · simp only [if_neg h1]
    rw [hx] at h1
    cases k with
    | zero =>
      simp only [if_true, hl]
      rw [if_neg]
      simp [dim, hn]
    | succ k =>
      rw [dim_cons_succ] at h1
      have hk : k < S.length := by
        by_contra h
        exact h1 (dim_ge (by omega))
      have : dim (S ++ [n]) k = dim S k := by simp [dim, List.getElem?_append_left hk]
      simp [this, h1, hk.ne]

theorem read_rootsArr (n : ℕ) (hn : n ≠ 1) (roots) (c : Arr (List ℂ)) (i : ℕ → ℕ) (j : ℕ) :
    (rootsArr n roots c).read (fun k => if k = 0 then j else i (k - 1)) = (roots none (c.read i)).getD j 0 := by
  show (roots none (c.read _)).getD _ 0 = _
  have e : (c.read fun k => if dim (n :: c.shape) (k + 1) = 1 then 0 else if k + 1 = 0 then j else i (k + 1 - 1)) = c.read i := by
    rw [← read_norm c c.shape (Into.refl _) i]
    rfl
  have e' : (if dim (n :: c.shape) 0 = 1 then 0 else if (0 : ℕ) = 0 then j else i (0 - 1)) = j := by
    simp [dim_cons_zero, hn]
  exact congrArg₂ (fun a b => (roots none a).getD b 0) e e'

/-! ## Two lenses -/

/-- Three shapes, the last two broadcast first. -/
theorem bdims_three {a b c U S : List ℕ} (h1 : bdims b c = some U) (h2 : bdims a U = some S) : IsBroadcast S [a, b, c] := by
  have iU := into_right h2
  have ia := into_left h2
  have ib := (into_left h1).trans iU
  have ic := (into_right h1).trans iU
  obtain ⟨-, l1, d1⟩ := bdims_some h1
  obtain ⟨-, l2, d2⟩ := bdims_some h2
  refine ⟨by simpa using ⟨ia.1, ib.1, ic.1⟩, ?_, fun k => ⟨?_, ?_⟩⟩
  · rcases max_choice b.length c.length with h | h <;> rcases max_choice a.length U.length with h' | h' <;>
      simp only [List.mem_cons, List.not_mem_nil, or_false, exists_eq_or_imp, exists_eq_left]
    · left; rw [l2, h']
    · right; left; rw [l2, h', l1, h]
    · left; rw [l2, h']
    · right; right; rw [l2, h', l1, h]
  · simp only [List.mem_cons, List.not_mem_nil, or_false, exists_eq_or_imp, exists_eq_left]
    show dim a k = dim S k ∨ dim b k = dim S k ∨ dim c k = dim S k
    rw [d2, d1]
    split_ifs with h h' <;> simp
  · simpa using ⟨ia.2 k, ib.2 k, ic.2 k⟩

/-- **C115, two lenses**: arrays of sources, separations and mass ratios whose shapes can be broadcast together give an array
of the broadcast shape, and every element of it is the magnification that the scalar call returns for the elements of `w`, `s`
and `q` that meet there. -/
theorem C115_binary (roots : Option (List ℂ) → List ℂ → List ℂ) (hlen : ∀ init c, (roots init c).length = c.length - 1)
    (w : Arr ℂ) (s q : Arr ℝ) (hc : Compatible [w.shape, s.shape, q.shape]) :
    ∃ r, magBinary roots w s q = .ok r ∧ IsBroadcast r.shape [w.shape, s.shape, q.shape] ∧
      ∀ i, InRange r.shape i → ∀ u : UserParams, u.s = s.read i → u.q = q.read i →
        magPointSource roots 2 u (w.read i) = .ok (r.read i) := by
  simp only [Compatible, List.mem_cons, List.not_mem_nil, or_false, forall_eq_or_imp, forall_eq] at hc
  obtain ⟨⟨-, hws, hwq⟩, ⟨-, -, hsq⟩, -⟩ := hc
  obtain ⟨U, hU⟩ := bdims_exists hsq
  have hwU : ∀ k, dim w.shape k = 1 ∨ dim U k = 1 ∨ dim w.shape k = dim U k := by
    intro k
    rw [(bdims_some hU).2.2 k]
    split_ifs
    · exact hwq k
    · exact hws k
  obtain ⟨S, hS⟩ := bdims_exists hwU
  simp only [magBinary]
  rw [map2_eq _ s q hU]
  simp only [bind, Except.bind]
  set u : Arr UserParams := ⟨U, fun i => { s := s.read i, q := q.read i }⟩ with hu
  rw [map2_eq _ w u hS]
  simp only
  set w' : Arr ℂ := ⟨S, fun i => w.read i - xCM (u.read i)⟩ with hw'
  set p : Arr MidParams := ⟨u.shape, fun i => midParams2 (u.get i)⟩ with hp
  have iU : Into U S := into_right hS
  rw [map2_eq _ w' p (show bdims w'.shape p.shape = some S from bdims_into iU)]
  simp only
  set c : Arr (List ℂ) := ⟨S, fun i => polyCoeffsBinary (w'.read i) (p.read i).a (p.read i).e1⟩ with hcdef
  have ru : ∀ i, u.read i = { s := s.read i, q := q.read i } := fun i => by
    rw [hu, read_mk2 (fun s q => ({ s := s, q := q } : UserParams)) s q U (into_left hU) (into_right hU)]
  have rp : ∀ i, p.read i = midParams2 (u.read i) := fun i => rfl
  have rw' : ∀ i, w'.read i = w.read i - xCM (u.read i) := fun i => by
    rw [hw', read_mk2 (fun (w : ℂ) u => w - xCM u) w u S (into_left hS) iU]
  have rc : ∀ i, c.read i = polyCoeffsBinary (w'.read i) (p.read i).a (p.read i).e1 := fun i => by
    rw [hcdef, read_mk2 (fun w (p : MidParams) => polyCoeffsBinary w p.a p.e1) w' p S (Into.refl _) iU]
  obtain ⟨r, hr, hrs, hval⟩ := magOf_eq lensEq2 detJac2 (1 / 10 ^ 6) p w' (moveLastFirst (rootsArr 5 roots c)) 5
    (by simp [moveLastFirst, rootsArr, hcdef, hw']) iU (fun i => roots none (c.read i))
    (fun i => by rw [hlen, rc]; simp [polyCoeffsBinary])
    (fun i j _ => by
      rw [show w'.shape = S from rfl, read_moveLastFirst _ 5 S (by norm_num) rfl, read_rootsArr 5 (by norm_num)])
  refine ⟨r, hr, ?_, ?_⟩
  · rw [hrs]; exact bdims_three hU hS
  · intro i hi v hvs hvq
    rw [hrs] at hi
    rw [hval i hi, rc, rp, rw', ru]
    have e1 : midParams2 v = midParams2 { s := s.read i, q := q.read i } := by simp [midParams2, hvs, hvq]
    have e2 : xCM v = xCM { s := s.read i, q := q.read i } := by simp [xCM, hvs, hvq]
    simp [magPointSource, images2, e1, e2]

/-- **C115, two lenses**: shapes that cannot be broadcast together raise. -/
theorem C115_binary_incompatible (roots : Option (List ℂ) → List ℂ → List ℂ) (w : Arr ℂ) (s q : Arr ℝ)
    (hc : ¬ Compatible [w.shape, s.shape, q.shape]) : ∃ e, magBinary roots w s q = .error e := by
  simp only [magBinary]
  cases hU : bdims s.shape q.shape with
  | none =>
    obtain ⟨e, he⟩ := map2_none (fun s q => ({ s := s, q := q } : UserParams)) s q hU
    exact ⟨e, by rw [he]; rfl⟩
  | some U =>
    rw [map2_eq _ s q hU]
    simp only [bind, Except.bind]
    set u : Arr UserParams := ⟨U, fun i => { s := s.read i, q := q.read i }⟩ with hu
    cases hS : bdims w.shape U with
    | none =>
      obtain ⟨e, he⟩ := map2_none (fun (w : ℂ) u => w - xCM u) w u hS
      exact ⟨e, by rw [he]⟩
    | some S =>
      exfalso
      apply hc
      have hB := bdims_three hU hS
      intro a ha b hb k
      rcases (hB.2.2 k).2 a ha with h | h
      · exact Or.inl h
      · rcases (hB.2.2 k).2 b hb with h' | h'
        · exact Or.inr (Or.inl h')
        · exact Or.inr (Or.inr (h.trans h'.symm))

/-! ## Three lenses -/

theorem getD_map_add (l : List ℂ) (c : ℂ) (j : ℕ) (h : j < l.length) : (l.map (· + c)).getD j 0 = l.getD j 0 + c := by
  simp [h]

/-- **C115, three lenses, what holds**: with scalar lens parameters an array of sources of any shape gives, element by element,
the magnifications that the scalar call returns.  Missing from the full statement (false, see below): lens parameters that are
arrays. -/
theorem C115_triple_partial (roots : Option (List ℂ) → List ℂ → List ℂ) (hlen : ∀ init c, (roots init c).length = c.length - 1)
    (w : Arr ℂ) (u : UserParams) :
    ∃ r, magTriple roots w (.scalar u.s) (.scalar u.q) (.scalar u.q3) (.scalar u.r3) (.scalar u.psi) = .ok r ∧
      r.shape = w.shape ∧ ∀ i, InRange r.shape i → magPointSource roots 3 u (w.read i) = .ok (r.read i) := by
  simp only [magTriple]
  rw [map2_eq _ (.scalar u.s) (.scalar u.q) (show bdims [] [] = some [] from rfl)]
  simp only [bind, Except.bind]
  set u2 : Arr UserParams := ⟨[], fun i => { s := (Arr.scalar u.s).read i, q := (Arr.scalar u.q).read i }⟩ with hu2
  rw [map2_eq _ u2 (.scalar u.q3) (show bdims [] [] = some [] from rfl)]
  simp only
  set u3 : Arr UserParams := ⟨[], fun i => { u2.read i with q3 := (Arr.scalar u.q3).read i }⟩ with hu3
  rw [map2_eq _ u3 (.scalar u.r3) (show bdims [] [] = some [] from rfl)]
  simp only
  set u4 : Arr UserParams := ⟨[], fun i => { u3.read i with r3 := (Arr.scalar u.r3).read i }⟩ with hu4
  rw [map2_eq _ u4 (.scalar u.psi) (show bdims [] [] = some [] from rfl)]
  simp only
  set p : Arr MidParams := ⟨[], fun i => midParams3 { u4.read i with psi := (Arr.scalar u.psi).read i }⟩ with hp
  rw [map2_eq _ w u2 (show bdims w.shape [] = some w.shape from bdims_nil_right _)]
  simp only
  set w' : Arr ℂ := ⟨w.shape, fun i => w.read i - xCM (u2.read i)⟩ with hw'
  rw [map2_eq _ w' p (show bdims w.shape [] = some w.shape from bdims_nil_right _)]
  simp only
  set c : Arr (List ℂ) := ⟨w.shape, fun i => polyCoeffsTripleCM (w'.read i) (p.read i).a (r3Complex (p.read i)) (p.read i).e1
    (p.read i).e2⟩ with hcdef
  set sh : Arr ℂ := ⟨[], fun i => shiftCM (p.get i).a (r3Complex (p.get i)) (p.get i).e1 (p.get i).e2⟩ with hsh
  rw [map2_eq _ (rootsArr 10 roots c) sh (show bdims (10 :: w.shape) [] = some (10 :: w.shape) from rfl)]
  simp only
  have i0 : ∀ S : List ℕ, Into [] S := fun S => ⟨by simp, fun k => Or.inl (dim_nil k)⟩
  have rp : ∀ i, p.read i = midParams3 u := fun i => rfl
  have rx : ∀ i, xCM (u2.read i) = xCM u := fun i => rfl
  have rw' : ∀ i, w'.read i = w.read i - xCM u := fun i => by
    rw [hw', read_mk2 (fun (w : ℂ) u => w - xCM u) w u2 w.shape (Into.refl _) (i0 _), rx]
  have rc : ∀ i, c.read i = polyCoeffsTripleCM (w.read i - xCM u) (midParams3 u).a (r3Complex (midParams3 u)) (midParams3 u).e1
      (midParams3 u).e2 := fun i => by
    rw [hcdef, read_mk2 (fun w (p : MidParams) => polyCoeffsTripleCM w p.a (r3Complex p) p.e1 p.e2) w' p w.shape (Into.refl _)
      (i0 _), rw', rp]
  set S := shiftCM (midParams3 u).a (r3Complex (midParams3 u)) (midParams3 u).e1 (midParams3 u).e2 with hS
  have rs : ∀ i, sh.read i = S := fun i => rfl
  have hl : ∀ i, (roots none (c.read i)).length = 10 := fun i => by rw [hlen, rc]; simp [polyCoeffsTripleCM]
  set z : Arr ℂ := ⟨10 :: w.shape, fun i => (rootsArr 10 roots c).read i + sh.read i⟩ with hz
  obtain ⟨r, hr, hrs, hval⟩ := magOf_eq lensEq3 detJac3 (1 / 10 ^ 3) p w' (moveLastFirst z) 10
    (by simp [moveLastFirst, hz, hw']) (i0 _) (fun i => (roots none (c.read i)).map (· + S))
    (fun i => by rw [List.length_map, hl])
    (fun i j hj => by
      rw [show w'.shape = w.shape from rfl, read_moveLastFirst _ 10 w.shape (by norm_num) rfl, hz,
        read_mk2 (fun z c : ℂ => z + c) (rootsArr 10 roots c) sh (10 :: w.shape)
          (show Into (10 :: w.shape) _ from Into.refl _) (i0 _), read_rootsArr 10 (by norm_num),
        getD_map_add _ _ _ (by rw [hl]; exact hj), rs])
  refine ⟨r, hr, hrs, fun i hi => ?_⟩
  rw [hrs] at hi
  rw [hval i hi, rc, rp, rw']
  simp [magPointSource, images3, hS]

/-- **C115, three lenses, violated**: if one of the lens parameters is an array whose trailing axis is neither of length one nor
of length ten, the call raises, whatever the sources are; so `s = jnp.linspace(0.8, 1.2, 50)` cannot be swept. -/
theorem C115_triple_raises_violated (roots : Option (List ℂ) → List ℂ → List ℂ) (w : Arr ℂ) (s q q3 r3 psi : Arr ℝ)
    (h : ∃ x ∈ [s, q, q3, r3, psi], x.shape.headD 1 ≠ 1 ∧ x.shape.headD 1 ≠ 10) :
    ∃ e, magTriple roots w s q q3 r3 psi = .error e := by
  have hd : ∀ t : List ℕ, dim t 0 = t.headD 1 := by intro t; cases t <;> rfl
  simp only [magTriple]
  cases h1 : bdims s.shape q.shape with
  | none =>
    obtain ⟨e, he⟩ := map2_none (fun s q => ({ s := s, q := q } : UserParams)) s q h1
    exact ⟨e, by rw [he]; rfl⟩
  | some S1 =>
  rw [map2_eq _ s q h1]
  simp only [bind, Except.bind]
  set u2 : Arr UserParams := ⟨S1, fun i => { s := s.read i, q := q.read i }⟩ with hu2
  cases h2 : bdims S1 q3.shape with
  | none =>
    obtain ⟨e, he⟩ := map2_none (fun (u : UserParams) q3 => { u with q3 := q3 }) u2 q3 h2
    exact ⟨e, by rw [he]⟩
  | some S2 =>
  rw [map2_eq _ u2 q3 h2]
  simp only
  set u3 : Arr UserParams := ⟨S2, fun i => { u2.read i with q3 := q3.read i }⟩ with hu3
  cases h3 : bdims S2 r3.shape with
  | none =>
    obtain ⟨e, he⟩ := map2_none (fun (u : UserParams) r3 => { u with r3 := r3 }) u3 r3 h3
    exact ⟨e, by rw [he]⟩
  | some S3 =>
  rw [map2_eq _ u3 r3 h3]
  simp only
  set u4 : Arr UserParams := ⟨S3, fun i => { u3.read i with r3 := r3.read i }⟩ with hu4
  cases h4 : bdims S3 psi.shape with
  | none =>
    obtain ⟨e, he⟩ := map2_none (fun (u : UserParams) psi => { u with psi := psi }) u4 psi h4
    exact ⟨e, by rw [he]⟩
  | some S4 =>
  rw [map2_eq _ u4 psi h4]
  simp only
  set p : Arr MidParams := ⟨S4, fun i => midParams3 { u4.read i with psi := psi.read i }⟩ with hp
  cases h5 : bdims w.shape S1 with
  | none =>
    obtain ⟨e, he⟩ := map2_none (fun (w : ℂ) u => w - xCM u) w u2 h5
    exact ⟨e, by rw [he]⟩
  | some S5 =>
  rw [map2_eq _ w u2 h5]
  simp only
  set w' : Arr ℂ := ⟨S5, fun i => w.read i - xCM (u2.read i)⟩ with hw'
  cases h6 : bdims S5 S4 with
  | none =>
    obtain ⟨e, he⟩ := map2_none (fun w (p : MidParams) => polyCoeffsTripleCM w p.a (r3Complex p) p.e1 p.e2) w' p h6
    exact ⟨e, by rw [he]⟩
  | some S6 =>
  rw [map2_eq _ w' p h6]
  simp only
  set c : Arr (List ℂ) := ⟨S6, fun i => polyCoeffsTripleCM (w'.read i) (p.read i).a (r3Complex (p.read i)) (p.read i).e1
    (p.read i).e2⟩ with hcdef
  have hS4 : dim S4 0 ≠ 1 ∧ dim S4 0 ≠ 10 := by
    have j4 := into_left h4
    have j3 := (into_left h3).trans j4
    have j2 := (into_left h2).trans j3
    have key : ∀ t : List ℕ, Into t S4 → t.headD 1 ≠ 1 ∧ t.headD 1 ≠ 10 → dim S4 0 ≠ 1 ∧ dim S4 0 ≠ 10 := by
      intro t ht h
      rw [← hd] at h
      rcases ht.2 0 with h' | h'
      · exact absurd h' h.1
      · rw [← h']; exact h
    obtain ⟨x, hx, hx'⟩ := h
    simp only [List.mem_cons, List.not_mem_nil, or_false] at hx
    rcases hx with rfl | rfl | rfl | rfl | rfl
    · exact key _ ((into_left h1).trans j2) hx'
    · exact key _ ((into_right h1).trans j2) hx'
    · exact key _ ((into_right h2).trans j3) hx'
    · exact key _ ((into_right h3).trans j4) hx'
    · exact key _ (into_right h4) hx'
  have h7 : bdims (10 :: S6) S4 = none := by
    cases h7 : bdims (10 :: S6) S4 with
    | none => rfl
    | some S7 =>
      rcases (bdims_some h7).1 0 with h | h | h
      · simp [dim_cons_zero] at h
      · exact absurd h hS4.1
      · exact absurd h.symm hS4.2
  obtain ⟨e, he⟩ := map2_none (fun z c : ℂ => z + c) (rootsArr 10 roots c)
    ⟨p.shape, fun i => shiftCM (p.get i).a (r3Complex (p.get i)) (p.get i).e1 (p.get i).e2⟩ h7
  exact ⟨e, by rw [he]⟩

/-- The lens of row `i` of a grid of separations. -/
def rowLens (u : UserParams) (s : ℕ → ℝ) (i : ℕ) : MidParams := midParams3 { u with s := s i }

/-- A grid: separations `s` in a column of length `N`, sources `w` in a row of the same length, as in
`mag_point_source(w[None, :], nlenses=3, s=s[:, None], ...)`.  The call returns an `N × N` array, and in row `i`, column `j` the
images of the lens of row `i` have been displaced by the centre of mass of the lens of row `j`. -/
theorem triple_grid (roots : Option (List ℂ) → List ℂ → List ℂ) (hlen : ∀ init c, (roots init c).length = c.length - 1)
    (N : ℕ) (hN : N ≠ 1) (w : ℕ → ℂ) (s : ℕ → ℝ) (u : UserParams) :
    ∃ r, magTriple roots ⟨[N], fun i => w (i 0)⟩ ⟨[1, N], fun i => s (i 1)⟩ (.scalar u.q) (.scalar u.q3) (.scalar u.r3)
        (.scalar u.psi) = .ok r ∧ r.shape = [N, N] ∧ ∀ i, InRange r.shape i →
      r.read i = sumMag (detJac3 (rowLens u s (i 1))) (withMask (lensEq3 (rowLens u s (i 1))) (1 / 10 ^ 3)
        (w (i 0) - xCM { u with s := s (i 1) })
        ((roots none (polyCoeffsTripleCM (w (i 0) - xCM { u with s := s (i 1) }) (rowLens u s (i 1)).a
            (r3Complex (rowLens u s (i 1))) (rowLens u s (i 1)).e1 (rowLens u s (i 1)).e2)).map
          (· + shiftCM (rowLens u s (i 0)).a (r3Complex (rowLens u s (i 0))) (rowLens u s (i 0)).e1 (rowLens u s (i 0)).e2))) := by
  simp only [magTriple]
  set wa : Arr ℂ := ⟨[N], fun i => w (i 0)⟩ with hwa
  set sa : Arr ℝ := ⟨[1, N], fun i => s (i 1)⟩ with hsa
  rw [map2_eq _ sa (.scalar u.q) (show bdims [1, N] [] = some [1, N] from rfl)]
  simp only [bind, Except.bind]
  set u2 : Arr UserParams := ⟨[1, N], fun i => { s := sa.read i, q := (Arr.scalar u.q).read i }⟩ with hu2
  rw [map2_eq _ u2 (.scalar u.q3) (show bdims [1, N] [] = some [1, N] from rfl)]
  simp only
  set u3 : Arr UserParams := ⟨[1, N], fun i => { u2.read i with q3 := (Arr.scalar u.q3).read i }⟩ with hu3
  rw [map2_eq _ u3 (.scalar u.r3) (show bdims [1, N] [] = some [1, N] from rfl)]
  simp only
  set u4 : Arr UserParams := ⟨[1, N], fun i => { u3.read i with r3 := (Arr.scalar u.r3).read i }⟩ with hu4
  rw [map2_eq _ u4 (.scalar u.psi) (show bdims [1, N] [] = some [1, N] from rfl)]
  simp only
  set p : Arr MidParams := ⟨[1, N], fun i => midParams3 { u4.read i with psi := (Arr.scalar u.psi).read i }⟩ with hp
  have hb1 : bdims [N] [1, N] = some [N, N] := by simp [bdims, hN]
  have hb2 : bdims [N, N] [1, N] = some [N, N] := by simp [bdims, hN]
  have hb3 : bdims [10, N, N] [1, N] = some [10, N, N] := by simp [bdims, hN]
  rw [map2_eq _ wa u2 (show bdims [N] [1, N] = some [N, N] from hb1)]
  simp only
  set w' : Arr ℂ := ⟨[N, N], fun i => wa.read i - xCM (u2.read i)⟩ with hw'
  rw [map2_eq _ w' p (show bdims [N, N] [1, N] = some [N, N] from hb2)]
  simp only
  set c : Arr (List ℂ) := ⟨[N, N], fun i => polyCoeffsTripleCM (w'.read i) (p.read i).a (r3Complex (p.read i)) (p.read i).e1
    (p.read i).e2⟩ with hcdef
  set sh : Arr ℂ := ⟨[1, N], fun i => shiftCM (p.get i).a (r3Complex (p.get i)) (p.get i).e1 (p.get i).e2⟩ with hsh
  rw [map2_eq _ (rootsArr 10 roots c) sh (show bdims [10, N, N] [1, N] = some [10, N, N] from hb3)]
  simp only
  have d1 : ∀ i : ℕ → ℕ, (if dim [1, N] 1 = 1 then 0 else i 1) = i 1 := fun i => if_neg (by simpa [dim] using hN)
  have rsa : ∀ i, sa.read i = s (i 1) := fun i => by
    show s (if dim [1, N] 1 = 1 then 0 else i 1) = _
    rw [d1]
  have i0 : Into [] [1, N] := ⟨by simp, fun k => Or.inl (dim_nil k)⟩
  have ru2 : ∀ i, u2.read i = { s := s (i 1), q := u.q } := fun i => by
    rw [hu2, read_mk2 (fun s q => ({ s := s, q := q } : UserParams)) sa (.scalar u.q) [1, N] (Into.refl _) i0, rsa]
    rfl
  have ru3 : ∀ i, u3.read i = { s := s (i 1), q := u.q, q3 := u.q3 } := fun i => by
    refine (read_mk2 (fun (u : UserParams) (q3 : ℝ) => ({ u with q3 := q3 } : UserParams)) u2 (.scalar u.q3) [1, N]
      (Into.refl _) i0 i).trans ?_
    rw [ru2]
    rfl
  have ru4 : ∀ i, u4.read i = { s := s (i 1), q := u.q, q3 := u.q3, r3 := u.r3 } := fun i => by
    refine (read_mk2 (fun (u : UserParams) (r3 : ℝ) => ({ u with r3 := r3 } : UserParams)) u3 (.scalar u.r3) [1, N]
      (Into.refl _) i0 i).trans ?_
    rw [ru3]
    rfl
  have rp : ∀ i, p.read i = rowLens u s (i 1) := fun i => by
    refine (read_mk2 (fun (u : UserParams) (psi : ℝ) => midParams3 { u with psi := psi }) u4 (.scalar u.psi) [1, N]
      (Into.refl _) i0 i).trans ?_
    rw [ru4]
    rfl
  have rx : ∀ i, xCM (u2.read i) = xCM { u with s := s (i 1) } := fun i => by rw [ru2]; rfl
  have rwa : ∀ i, wa.read i = w (i 0) := fun i => by
    show w (if dim [N] 0 = 1 then 0 else i 0) = _
    rw [if_neg (by simpa [dim] using hN)]
  have iw : Into [N] [N, N] := into_left hb1
  have ip : Into [1, N] [N, N] := into_right hb1
  have rw' : ∀ i, w'.read i = w (i 0) - xCM { u with s := s (i 1) } := fun i => by
    rw [hw', read_mk2 (fun (w : ℂ) u => w - xCM u) wa u2 [N, N] iw ip, rx, rwa]
  have rc : ∀ i, c.read i = polyCoeffsTripleCM (w (i 0) - xCM { u with s := s (i 1) }) (rowLens u s (i 1)).a
      (r3Complex (rowLens u s (i 1))) (rowLens u s (i 1)).e1 (rowLens u s (i 1)).e2 := fun i => by
    rw [hcdef, read_mk2 (fun w (p : MidParams) => polyCoeffsTripleCM w p.a (r3Complex p) p.e1 p.e2) w' p [N, N] (Into.refl _)
      ip, rw', rp]
  set S : ℕ → ℂ := fun j => shiftCM (rowLens u s j).a (r3Complex (rowLens u s j)) (rowLens u s j).e1 (rowLens u s j).e2 with hS
  have rs : ∀ i, sh.read i = S (i 1) := fun i => by
    have : sh.read i = shiftCM (p.read i).a (r3Complex (p.read i)) (p.read i).e1 (p.read i).e2 := rfl
    rw [this, rp]
  have hl : ∀ i, (roots none (c.read i)).length = 10 := fun i => by rw [hlen, rc]; simp [polyCoeffsTripleCM]
  set z : Arr ℂ := ⟨[10, N, N], fun i => (rootsArr 10 roots c).read i + sh.read i⟩ with hz
  obtain ⟨r, hr, hrs, hval⟩ := magOf_eq lensEq3 detJac3 (1 / 10 ^ 3) p w' (moveLastFirst z) 10
    (by simp [moveLastFirst, hz, hw']) ip (fun i => (roots none (c.read i)).map (· + S (i 0)))
    (fun i => by rw [List.length_map, hl])
    (fun i j hj => by
      rw [show w'.shape = [N, N] from rfl, read_moveLastFirst _ 10 [N, N] (by norm_num) rfl, hz,
        read_mk2 (fun z c : ℂ => z + c) (rootsArr 10 roots c) sh [10, N, N]
          (show Into [10, N, N] _ from Into.refl _) (into_right hb3), read_rootsArr 10 (by norm_num),
        getD_map_add _ _ _ (by rw [hl]; exact hj), rs]
      rfl)
  refine ⟨r, hr, hrs, fun i hi => ?_⟩
  rw [hrs] at hi
  rw [hval i hi, rc, rp, rw']

theorem far_not_accepted (u : UserParams) (hq : 0 < u.q) (hq3 : 0 < u.q3) (w Z : ℂ)
    (hZ : 2 + ‖w‖ + |(midParams3 u).a| + ‖r3Complex (midParams3 u)‖ ≤ ‖Z‖) : 1 ≤ ‖lensEq3 (midParams3 u) Z - w‖ := by
  set p := midParams3 u with hp
  have hD : 0 < 1 + u.q + u.q3 := by positivity
  have he1 : 0 ≤ p.e1 := by simp only [hp, midParams3]; positivity
  have he2 : 0 ≤ p.e2 := by simp only [hp, midParams3]; positivity
  have he3 : 0 ≤ 1 - p.e1 - p.e2 := by
    have : 1 - p.e1 - p.e2 = u.q3 / (1 + u.q + u.q3) := by simp only [hp, midParams3]; field_simp; ring
    rw [this]; positivity
  have hn : ‖conj Z‖ = ‖Z‖ := RCLike.norm_conj Z
  have n1 : 1 ≤ ‖conj Z - p.a‖ := by
    have h := norm_sub_norm_le (conj Z) (p.a : ℂ)
    have h' : ‖(p.a : ℂ)‖ = |p.a| := by simp
    have := norm_nonneg (r3Complex p); have := norm_nonneg w
    linarith
  have n2 : 1 ≤ ‖conj Z + p.a‖ := by
    have h := norm_sub_norm_le (conj Z) (-(p.a : ℂ))
    have h' : ‖-(p.a : ℂ)‖ = |p.a| := by simp
    rw [sub_neg_eq_add] at h
    have := norm_nonneg (r3Complex p); have := norm_nonneg w
    linarith
  have n3 : 1 ≤ ‖conj Z - conj (r3Complex p)‖ := by
    have h := norm_sub_norm_le (conj Z) (conj (r3Complex p))
    have h' : ‖conj (r3Complex p)‖ = ‖r3Complex p‖ := RCLike.norm_conj _
    have := abs_nonneg p.a; have := norm_nonneg w
    linarith
  have t : ∀ (m : ℝ) (x : ℂ), 0 ≤ m → 1 ≤ ‖x‖ → ‖(m : ℂ) / x‖ ≤ m := by
    intro m x hm hx
    rw [norm_div]
    have : ‖(m : ℂ)‖ = m := by simp [abs_of_nonneg hm]
    rw [this]
    exact div_le_self hm hx
  have t1 := t p.e1 _ he1 n1
  have t2 := t p.e2 _ he2 n2
  have t3 := t (1 - p.e1 - p.e2) _ he3 n3
  have e : lensEq3 p Z - w = Z - ((p.e1 : ℂ) / (conj Z - p.a) + (p.e2 : ℂ) / (conj Z + p.a)
      + ((1 - p.e1 - p.e2 : ℝ) : ℂ) / (conj Z - conj (r3Complex p)) + w) := by
    simp only [lensEq3]; push_cast; ring
  rw [e]
  have a1 := norm_sub_norm_le Z ((p.e1 : ℂ) / (conj Z - p.a) + (p.e2 : ℂ) / (conj Z + p.a)
      + ((1 - p.e1 - p.e2 : ℝ) : ℂ) / (conj Z - conj (r3Complex p)) + w)
  have a2 := norm_add₄_le (a := (p.e1 : ℂ) / (conj Z - p.a)) (b := (p.e2 : ℂ) / (conj Z + p.a))
      (c := ((1 - p.e1 - p.e2 : ℝ) : ℂ) / (conj Z - conj (r3Complex p))) (d := w)
  have := norm_nonneg (r3Complex p); have := abs_nonneg p.a
  linarith

theorem norm_le_sum (l : List ℂ) (z : ℂ) (h : z ∈ l) : ‖z‖ ≤ (l.map norm).sum :=
  List.single_le_sum (by simp) _ (List.mem_map_of_mem h)

/-- **C115, three lenses, violated**: the case that does not raise is wrong.  A column of `N ≥ 2` separations against a row of
as many sources returns an `N × N` array; in row `i`, column `j ≠ i` the magnification of the lens `i` for the source `j`, which is
at least one, comes out as zero whenever the separation of row `j` is large enough: no root satisfies the lens equation any more,
because all of them have been displaced by the centre of mass of another lens. -/
theorem C115_triple_wrong_violated (roots : Option (List ℂ) → List ℂ → List ℂ)
    (hlen : ∀ init c, (roots init c).length = c.length - 1) (u : UserParams) (hq : 0 < u.q) (hq3 : 0 < u.q3) (hq1 : u.q ≠ 1)
    (N : ℕ) (w : ℕ → ℂ) (i j : ℕ) (hi : i < N) (hj : j < N) (hij : i ≠ j)
    (c : List ℂ) (hc : c = polyCoeffsTripleCM (w j - xCM u) (midParams3 u).a (r3Complex (midParams3 u))
      (midParams3 u).e1 (midParams3 u).e2)
    (hroots : IsRootList c (roots none c)) (hdeg : c.headD 0 ≠ 0)
    (hcaustic : ∀ z, IsImage (triple u.s u.q u.q3 u.r3 u.psi) (w j) z →
      jacDet (lensMap (triple u.s u.q u.q3 u.r3 u.psi)) z ≠ 0) :
    ∃ B, ∀ s : ℕ → ℝ, s i = u.s → B < s j → ∃ r A,
      magTriple roots ⟨[N], fun i => w (i 0)⟩ ⟨[1, N], fun i => s (i 1)⟩ (.scalar u.q) (.scalar u.q3) (.scalar u.r3)
        (.scalar u.psi) = .ok r ∧ r.shape = [N, N] ∧ r.read (fun k => if k = 0 then j else i) = 0 ∧
      magPointSource roots 3 u (w j) = .ok A ∧ 1 ≤ A := by
  obtain ⟨A, hA, hA1⟩ := C79_point_triple roots u (w j) hq hq3 c hc hroots hdeg hcaustic
  set p := midParams3 u with hp
  set D := 1 + u.q + u.q3 with hD
  have hDpos : 0 < D := by positivity
  set T := ((roots none c).map norm).sum with hT
  set M := 2 + ‖w j - xCM u‖ + |p.a| + ‖r3Complex p‖ + T + |u.q3 / D * (r3Complex p).re| with hM
  refine ⟨2 * (M * D / |u.q - 1|), fun s hs hB => ?_⟩
  obtain ⟨r, hr, hrs, hval⟩ := triple_grid roots hlen N (by omega) w s u
  refine ⟨r, A, hr, hrs, ?_, hA, hA1⟩
  rw [hval _ (by
    rw [hrs]
    intro k hk
    simp only [List.length_cons, List.length_nil] at hk
    rcases k with _ | _ | k
    · simpa using hj
    · simpa using hi
    · omega)]
  have e1 : rowLens u s i = p := by simp [rowLens, hs, hp]
  have e2 : xCM { u with s := s i } = xCM u := by rw [hs]
  simp only [if_true, one_ne_zero, if_false, e1, e2, ← hc]
  set S := shiftCM (rowLens u s j).a (r3Complex (rowLens u s j)) (rowLens u s j).e1 (rowLens u s j).e2 with hS
  have hSre : S.re = s j / 2 * ((u.q - 1) / D) + u.q3 / D * (r3Complex p).re := by
    have : (r3Complex (rowLens u s j)) = r3Complex p := rfl
    rw [hS, this]
    simp only [shiftCM, rowLens, midParams3, add_re, ofReal_re, mul_re, I_re, I_im, ofReal_im]
    rw [← hD]
    field_simp
    ring
  have hqa : 0 < |u.q - 1| := abs_pos.mpr (sub_ne_zero.mpr hq1)
  have hSn : M - |u.q3 / D * (r3Complex p).re| ≤ ‖S‖ := by
    have h1 : |S.re| ≤ ‖S‖ := abs_re_le_norm S
    have h2 : |s j / 2 * ((u.q - 1) / D)| - |u.q3 / D * (r3Complex p).re| ≤ |S.re| := by
      rw [hSre]
      have := abs_sub_abs_le_abs_sub (s j / 2 * ((u.q - 1) / D)) (-(u.q3 / D * (r3Complex p).re))
      rwa [abs_neg, sub_neg_eq_add] at this
    have h3 : M ≤ |s j / 2 * ((u.q - 1) / D)| := by
      have hpos : M * D / |u.q - 1| < s j / 2 := by linarith
      rw [abs_mul, abs_div (u.q - 1) D, abs_of_pos hDpos]
      have h4 : M * D / |u.q - 1| * (|u.q - 1| / D) = M := by field_simp
      calc M = M * D / |u.q - 1| * (|u.q - 1| / D) := h4.symm
        _ ≤ |s j / 2| * (|u.q - 1| / D) := by
            refine mul_le_mul_of_nonneg_right (hpos.le.trans (le_abs_self _)) (by positivity)
    linarith
  rw [sumMag, withMask, List.map_map, List.map_map]
  refine List.sum_eq_zero fun x hx => ?_
  obtain ⟨z, hz, rfl⟩ := List.mem_map.mp hx
  have hzn : ‖z‖ ≤ T := norm_le_sum _ _ hz
  have hbig : 2 + ‖w j - xCM u‖ + |p.a| + ‖r3Complex p‖ ≤ ‖z + S‖ := by
    have := norm_sub_norm_le S (-z)
    rw [norm_neg, sub_neg_eq_add, add_comm S z] at this
    linarith
  have hno := far_not_accepted u hq hq3 (w j - xCM u) (z + S) hbig
  have : ¬ ‖lensEq3 p (z + S) - (w j - xCM u)‖ < 1 / 10 ^ 3 := by
    rw [not_lt]; exact le_trans (by norm_num) hno
  simp only [Function.comp, this, decide_false, Bool.false_eq_true, if_false, mul_zero]

/-! ## Concrete cases -/

/-- A root finder that returns as many numbers as the degree, and the roots whenever the leading coefficient is not zero. -/
theorem exists_sized_finder : ∃ roots : Option (List ℂ) → List ℂ → List ℂ, (∀ init c, (roots init c).length = c.length - 1) ∧
    ∀ init c, c.headD 0 ≠ 0 → IsRootList c (roots init c) := by
  obtain ⟨f, hf⟩ := exists_exact_roots
  refine ⟨fun init c => if c.headD 0 ≠ 0 then f init c else List.replicate (c.length - 1) 0, fun init c => ?_, fun init c h => ?_⟩
  · by_cases h : c.headD 0 ≠ 0
    · simp only [if_pos h]
      cases c with
      | nil => simp at h
      | cons a t => exact rootList_length h (hf init _ h) rfl
    · simp only [if_neg h, List.length_replicate]
  · simp only [if_pos h]; exact hf init c h

/-- `C115_binary` for a `3 × 4` grid: separations in a column, sources in a row, one mass ratio.  The element in row `1`, column
`2` is the scalar call for `s[1]` and `w[2]`. -/
example : ∃ roots r, magBinary roots ⟨[4], fun i => (i 0 : ℂ) / 10⟩ ⟨[1, 3], fun i => 1 + (i 1 : ℝ) / 10⟩ (.scalar 1e-3) = .ok r ∧
    r.shape.length = 2 ∧
    magPointSource roots 2 { s := 1 + 1 / 10, q := 1e-3 } (2 / 10) = .ok (r.read fun k => if k = 0 then 2 else 1) := by
  obtain ⟨roots, h1, -⟩ := exists_sized_finder
  have hc : Compatible [[4], [1, 3], []] := by
    simp only [Compatible, List.mem_cons, List.not_mem_nil, or_false, forall_eq_or_imp, forall_eq]
    refine ⟨⟨?_, ?_, ?_⟩, ⟨?_, ?_, ?_⟩, ?_, ?_, ?_⟩ <;> intro k <;> rcases k with _ | _ | k <;> simp
  obtain ⟨r, hr, hb, hv⟩ := C115_binary roots h1 ⟨[4], fun i => (i 0 : ℂ) / 10⟩ ⟨[1, 3], fun i => 1 + (i 1 : ℝ) / 10⟩ (.scalar 1e-3) hc
  have hl : r.shape.length = 2 := by
    obtain ⟨s, hs, hs'⟩ := hb.2.1
    have := hb.1 [1, 3] (by simp)
    simp only [List.mem_cons, List.not_mem_nil, or_false] at hs
    rcases hs with rfl | rfl | rfl <;> simp [Arr.scalar] at hs' this <;> omega
  have d0 : r.shape.getD 0 1 = 4 := by
    have := (hb.2.2 0).2 [4] (by simp)
    simp at this ⊢; omega
  have d1 : r.shape.getD 1 1 = 3 := by
    have := (hb.2.2 1).2 [1, 3] (by simp)
    simp at this ⊢; omega
  refine ⟨roots, r, hr, hl, ?_⟩
  have := hv (fun k => if k = 0 then 2 else 1) (by
    intro k hk
    rw [hl] at hk
    rcases k with _ | _ | k
    · rw [d0]; norm_num
    · rw [d1]; norm_num
    · omega) { s := 1 + 1 / 10, q := 1e-3 } (by simp [Arr.read, dim]) (by simp [Arr.read, Arr.scalar])
  simpa [Arr.read, dim] using this

/-- Shapes as in `C115_binary_incompatible`: three sources and four mass ratios. -/
example (roots) : ∃ e, magBinary roots ⟨[3], fun _ => 0⟩ (.scalar 1) ⟨[4], fun _ => 1⟩ = .error e :=
  C115_binary_incompatible roots _ _ _ fun h => by
    have := h [3] (by simp) [4] (by simp) 0
    simp at this

/-- `C115_triple_partial` for a `2 × 3` array of sources. -/
example (roots : Option (List ℂ) → List ℂ → List ℂ) (hlen : ∀ init c, (roots init c).length = c.length - 1) : ∃ r,
    magTriple roots ⟨[3, 2], fun i => (i 0 : ℂ) + (i 1 : ℂ) * I⟩ (.scalar 1) (.scalar 1e-3) (.scalar 1e-2) (.scalar 1)
      (.scalar 0.5) = .ok r ∧
    magPointSource roots 3 { s := 1, q := 1e-3, q3 := 1e-2, r3 := 1, psi := 0.5 } (2 + 1 * I)
      = .ok (r.read fun k => if k = 0 then 2 else 1) := by
  obtain ⟨r, hr, hs, hv⟩ := C115_triple_partial roots hlen ⟨[3, 2], fun i => (i 0 : ℂ) + (i 1 : ℂ) * I⟩
    { s := 1, q := 1e-3, q3 := 1e-2, r3 := 1, psi := 0.5 }
  refine ⟨r, hr, ?_⟩
  have := hv (fun k => if k = 0 then 2 else 1) (by
    rw [hs]
    intro k hk
    rcases k with _ | _ | k
    · norm_num
    · norm_num
    · simp only [List.length_cons, List.length_nil] at hk; omega)
  simpa [Arr.read, dim] using this

/-- `C115_triple_raises_violated` for fifty separations and one source. -/
example (roots) : ∃ e, magTriple roots (.scalar 0) ⟨[50], fun i => 0.8 + (i 0 : ℝ) / 100⟩ (.scalar 1e-3) (.scalar 1e-2) (.scalar 1)
    (.scalar 0.5) = .error e :=
  C115_triple_raises_violated roots _ _ _ _ _ _ ⟨⟨[50], fun i => 0.8 + (i 0 : ℝ) / 100⟩, by simp, by simp⟩

/-- The lens of the next example. -/
def gridLens : UserParams := { s := 1, q := 1e-3, q3 := 1e-2, r3 := 1, psi := 0.5 }

/-- A lens, a finder and sources as in `C115_triple_wrong_violated`: two separations against two sources. -/
example : ∃ (roots : Option (List ℂ) → List ℂ → List ℂ) (w : ℕ → ℂ) (s : ℕ → ℝ) (r : Arr ℝ) (A : ℝ), s 0 = 1 ∧
    magTriple roots ⟨[2], fun i => w (i 0)⟩ ⟨[1, 2], fun i => s (i 1)⟩ (.scalar 1e-3) (.scalar 1e-2) (.scalar 1) (.scalar 0.5) = .ok r ∧
    r.read (fun k => if k = 0 then 1 else 0) = 0 ∧ magPointSource roots 3 gridLens (w 1) = .ok A ∧ 1 ≤ A := by
  obtain ⟨roots, h1, h2⟩ := exists_sized_finder
  set L := triple gridLens.s gridLens.q gridLens.q3 gridLens.r3 gridLens.psi with hL
  set p := midParams3 gridLens with hp
  have hae : ∀ᵐ w : ℂ, w ∉ lensMap L '' {z : ℂ | (∀ l ∈ L, z ≠ l.2) ∧ ‖shear L z‖ = 1} ∧
      w ∉ ({(p.a : ℂ) + xCM gridLens, -(p.a : ℂ) + xCM gridLens, r3Complex p + xCM gridLens} : Set ℂ) := by
    refine (MeasureTheory.measure_eq_zero_iff_ae_notMem.mp (caustic_null L)).and
      (MeasureTheory.measure_eq_zero_iff_ae_notMem.mp ?_)
    exact (Set.toFinite _).measure_zero _
  obtain ⟨w1, hw, hw'⟩ := hae.exists
  have hhead : (polyCoeffsTripleCM (w1 - xCM gridLens) p.a (r3Complex p) p.e1 p.e2).headD 0 ≠ 0 := by
    rw [(triple_head _ _ _ _ _).2]
    have hi : ∀ x : ℂ, x ≠ 0 → conj x ≠ 0 := fun x hx => by simpa using hx
    simp only [Set.mem_insert_iff, Set.mem_singleton_iff, not_or] at hw'
    refine mul_ne_zero (mul_ne_zero (hi _ fun h => hw'.1 ?_) (hi _ fun h => hw'.2.1 ?_)) (hi _ fun h => hw'.2.2 ?_)
    · linear_combination h
    · linear_combination h
    · linear_combination h
  obtain ⟨B, hB⟩ := C115_triple_wrong_violated roots h1 gridLens (by norm_num [gridLens]) (by norm_num [gridLens])
    (by norm_num [gridLens]) 2 (fun _ => w1) 0 1 (by norm_num) (by norm_num) (by norm_num) _ rfl (h2 _ _ hhead) hhead
    (fun z hz h0 => hw ⟨z, ⟨hz.1, (shear_eq_one_iff L z hz.1).mp h0⟩, hz.2⟩)
  obtain ⟨r, A, hr, -, h0, hA, hA1⟩ := hB (fun k => if k = 0 then 1 else B + 1) rfl (by simp)
  exact ⟨roots, fun _ => w1, fun k => if k = 0 then 1 else B + 1, r, A, rfl, hr, h0, hA, hA1⟩

end Microjax.Props
