import Verif.Model.Text
import Mathlib.Tactic.Tauto
import Mathlib.Tactic.Push

/-! # Languages of regular expressions: which characters and which pairs of neighbours may occur -/

namespace DD.Rx

/-- Can the empty text be matched? (upper bound) -/
def nul : Rx → Bool
  | .eps => true
  | .cls _ => false
  | .seq a b => a.nul && b.nul
  | .alt a b => a.nul || b.nul
  | .star _ => true
  | .grp _ a => a.nul
  | .nla _ => true

/-- Characters (upper bound). -/
def chs : Rx → Char → Bool
  | .eps, _ => false
  | .cls p, x => p x
  | .seq a b, x => a.chs x || b.chs x
  | .alt a b, x => a.chs x || b.chs x
  | .star a, x => a.chs x
  | .grp _ a, x => a.chs x
  | .nla _, _ => false

/-- First characters (upper bound). -/
def fst : Rx → Char → Bool
  | .eps, _ => false
  | .cls p, x => p x
  | .seq a b, x => a.fst x || (a.nul && b.fst x)
  | .alt a b, x => a.fst x || b.fst x
  | .star a, x => a.fst x
  | .grp _ a, x => a.fst x
  | .nla _, _ => false

/-- Last characters (upper bound). -/
def lst : Rx → Char → Bool
  | .eps, _ => false
  | .cls p, x => p x
  | .seq a b, x => b.lst x || (b.nul && a.lst x)
  | .alt a b, x => a.lst x || b.lst x
  | .star a, x => a.lst x
  | .grp _ a, x => a.lst x
  | .nla _, _ => false

/-- Neighbours (upper bound). -/
def prs : Rx → Char → Char → Bool
  | .eps, _, _ => false
  | .cls _, _, _ => false
  | .seq a b, x, y => a.prs x y || b.prs x y || (a.lst x && b.fst y)
  | .alt a b, x, y => a.prs x y || b.prs x y
  | .star a, x, y => a.prs x y || (a.lst x && a.fst y)
  | .grp _ a, x, y => a.prs x y
  | .nla _, _, _ => false

/-- What is known about a matched text. -/
structure Fits (n : Bool) (f l : Char → Bool) (c : Char → Bool) (p : Char → Char → Bool) (w : List Char) : Prop where
  nul : w = [] → n = true
  fst : ∀ x v, w = x :: v → f x = true
  lst : ∀ x u, w = u ++ [x] → l x = true
  chs : ∀ x ∈ w, c x = true
  prs : ∀ u x y v, w = u ++ x :: y :: v → p x y = true

theorem fits_append {n1 n2 n : Bool} {f1 f2 f l1 l2 l c1 c2 c : Char → Bool} {p1 p2 p : Char → Char → Bool} {w1 w2 : List Char}
    (h1 : Fits n1 f1 l1 c1 p1 w1) (h2 : Fits n2 f2 l2 c2 p2 w2)
    (hn : n1 = true → n2 = true → n = true) (hf : ∀ x, f1 x = true ∨ (n1 = true ∧ f2 x = true) → f x = true)
    (hl : ∀ x, l2 x = true ∨ (n2 = true ∧ l1 x = true) → l x = true) (hc : ∀ x, c1 x = true ∨ c2 x = true → c x = true)
    (hp : ∀ x y, p1 x y = true ∨ p2 x y = true ∨ (l1 x = true ∧ f2 y = true) → p x y = true) : Fits n f l c p (w1 ++ w2) where
  nul h := by
    obtain ⟨a, b⟩ := List.append_eq_nil_iff.1 h
    exact hn (h1.nul a) (h2.nul b)
  fst x v h := by
    cases w1 with
    | nil => exact hf x (Or.inr ⟨h1.nul rfl, h2.fst x v h⟩)
    | cons y w1 =>
      obtain ⟨rfl, -⟩ := List.cons.inj h
      exact hf y (Or.inl (h1.fst y w1 rfl))
  lst x u h := by
    rcases List.eq_nil_or_concat w2 with rfl | ⟨w2', y, rfl⟩
    · rw [List.append_nil] at h
      exact hl x (Or.inr ⟨h2.nul rfl, h1.lst x u h⟩)
    · rw [List.concat_eq_append, ← List.append_assoc] at h
      obtain ⟨-, h⟩ := List.append_inj' h rfl
      obtain rfl : y = x := by simpa using h
      exact hl y (Or.inl (h2.lst y w2' (by rw [List.concat_eq_append])))
  chs x hx := by
    rcases List.mem_append.1 hx with h | h
    · exact hc x (Or.inl (h1.chs x h))
    · exact hc x (Or.inr (h2.chs x h))
  prs u x y v h := by
    rcases List.append_eq_append_iff.1 h with ⟨a, ha, hb⟩ | ⟨a, ha, hb⟩
    · exact hp x y (Or.inr (Or.inl (h2.prs a x y v hb)))
    · cases a with
      | nil => exact hp x y (Or.inr (Or.inl (h2.prs [] x y v (by simpa using hb.symm))))
      | cons a1 a =>
        simp only [List.cons_append, List.cons.injEq] at hb
        obtain ⟨rfl, hb⟩ := hb
        cases a with
        | nil => exact hp x y (Or.inr (Or.inr ⟨h1.lst x u ha, h2.fst y v (by simpa using hb.symm)⟩))
        | cons a2 a =>
          simp only [List.cons_append, List.cons.injEq] at hb
          obtain ⟨rfl, hb⟩ := hb
          exact hp x y (Or.inl (h1.prs u x y a ha))

theorem fits_weaken {n1 n : Bool} {f1 f l1 l c1 c : Char → Bool} {p1 p : Char → Char → Bool} {w1 : List Char} (h1 : Fits n1 f1 l1 c1 p1 w1)
    (hn : n1 = true → n = true) (hf : ∀ x, f1 x = true → f x = true) (hl : ∀ x, l1 x = true → l x = true)
    (hc : ∀ x, c1 x = true → c x = true) (hp : ∀ x y, p1 x y = true → p x y = true) : Fits n f l c p w1 :=
  ⟨fun h => hn (h1.nul h), fun x v h => hf x (h1.fst x v h), fun x u h => hl x (h1.lst x u h), fun x h => hc x (h1.chs x h),
    fun u x y v h => hp x y (h1.prs u x y v h)⟩

theorem fits_nil {f l c : Char → Bool} {p : Char → Char → Bool} : Fits true f l c p [] :=
  ⟨fun _ => rfl, fun x v h => (by simp at h), fun x u h => (by simp at h), fun x h => (by simp at h), fun u x y v h => (by simp at h)⟩

/-- The bounds are correct. -/
theorem M.fits {r : Rx} : ∀ {s t : List Char} {c : Caps}, r.M s t c → ∃ w, s = w ++ t ∧ Fits r.nul r.fst r.lst r.chs r.prs w := by
  induction r with
  | eps =>
    rintro s t c ⟨rfl, -⟩
    exact ⟨[], rfl, fits_nil⟩
  | cls p =>
    rintro s t c ⟨a, rfl, ha, -⟩
    refine ⟨[a], rfl, fun h => (by simp at h), fun x v h => ?_, fun x u h => ?_, fun x h => ?_, fun u x y v h => ?_⟩
    · obtain ⟨rfl, -⟩ := List.cons.inj h; exact ha
    · cases u with
      | nil => obtain ⟨rfl, -⟩ := List.cons.inj h; exact ha
      | cons b u => simp at h
    · obtain rfl := List.mem_singleton.1 h; exact ha
    · have := congrArg List.length h
      simp at this
      omega
  | seq a b iha ihb =>
    rintro s t c ⟨u, c1, c2, h1, h2, -⟩
    obtain ⟨w1, rfl, f1⟩ := iha h1
    obtain ⟨w2, rfl, f2⟩ := ihb h2
    refine ⟨w1 ++ w2, by simp, fits_append f1 f2 ?_ ?_ ?_ ?_ ?_⟩ <;> simp only [nul, fst, lst, chs, prs, Bool.or_eq_true, Bool.and_eq_true] <;> tauto
  | alt a b iha ihb =>
    rintro s t c (h | h)
    · obtain ⟨w1, rfl, f1⟩ := iha h
      refine ⟨w1, rfl, fits_weaken f1 ?_ ?_ ?_ ?_ ?_⟩ <;> simp only [nul, fst, lst, chs, prs, Bool.or_eq_true] <;> tauto
    · obtain ⟨w1, rfl, f1⟩ := ihb h
      refine ⟨w1, rfl, fits_weaken f1 ?_ ?_ ?_ ?_ ?_⟩ <;> simp only [nul, fst, lst, chs, prs, Bool.or_eq_true] <;> tauto
  | star a iha =>
    intro s t c h
    induction h with
    | nil s => exact ⟨[], rfl, fits_nil⟩
    | @cons s u t c d h1 h2 ih =>
      obtain ⟨w1, rfl, f1⟩ := iha h1
      obtain ⟨w2, rfl, f2⟩ := ih
      by_cases e1 : w1 = []
      · subst e1; exact ⟨w2, rfl, f2⟩
      by_cases e2 : w2 = []
      · subst e2
        refine ⟨w1, by simp, fits_weaken f1 ?_ ?_ ?_ ?_ ?_⟩ <;> simp only [nul, fst, lst, chs, prs, Bool.or_eq_true] <;> tauto
      have f1' : Fits false a.fst a.lst a.chs a.prs w1 := ⟨fun h => absurd h e1, f1.fst, f1.lst, f1.chs, f1.prs⟩
      have f2' : Fits false (star a).fst (star a).lst (star a).chs (star a).prs w2 := ⟨fun h => absurd h e2, f2.fst, f2.lst, f2.chs, f2.prs⟩
      refine ⟨w1 ++ w2, by simp, fits_append f1' f2' ?_ ?_ ?_ ?_ ?_⟩ <;>
        simp only [nul, fst, lst, chs, prs, Bool.or_eq_true, Bool.and_eq_true] <;> simp <;> tauto
  | grp k a iha =>
    rintro s t c ⟨w, c1, rfl, h, -⟩
    obtain ⟨w', e, f1⟩ := iha h
    have := List.append_cancel_right e
    subst this
    exact ⟨w, rfl, f1⟩
  | nla a _ =>
    rintro s t c ⟨rfl, -, -⟩
    exact ⟨[], rfl, fits_nil⟩

/-- A repetition of a character class. -/
theorem star_cls {p : Char → Bool} {s t : List Char} {c : Caps} :
    (star (cls p)).M s t c ↔ c = [] ∧ ∃ w, s = w ++ t ∧ ∀ a ∈ w, p a = true := by
  constructor
  · intro h
    induction h with
    | nil s => exact ⟨rfl, [], rfl, by simp⟩
    | cons h1 h2 ih =>
      obtain ⟨a, rfl, ha, rfl⟩ := h1
      obtain ⟨rfl, w, rfl, hw⟩ := ih
      exact ⟨rfl, a :: w, rfl, by simpa using ⟨ha, hw⟩⟩
  · rintro ⟨rfl, w, rfl, hw⟩
    induction w with
    | nil => exact .nil t
    | cons a w ih =>
      exact .cons (c := []) ⟨a, rfl, hw a (by simp), rfl⟩ (ih fun b hb => hw b (by simp [hb]))

theorem plus_cls {p : Char → Bool} {s t : List Char} {c : Caps} :
    (plus (cls p)).M s t c ↔ c = [] ∧ ∃ w, s = w ++ t ∧ w ≠ [] ∧ ∀ a ∈ w, p a = true := by
  constructor
  · rintro ⟨u, c1, c2, ⟨a, rfl, ha, rfl⟩, h2, rfl⟩
    obtain ⟨rfl, w, rfl, hw⟩ := star_cls.1 h2
    exact ⟨rfl, a :: w, rfl, by simp, by simpa using ⟨ha, hw⟩⟩
  · rintro ⟨rfl, w, rfl, h0, hw⟩
    cases w with
    | nil => exact absurd rfl h0
    | cons a w => exact ⟨w ++ t, [], [], ⟨a, rfl, hw a (by simp), rfl⟩, star_cls.2 ⟨rfl, w, rfl, fun b hb => hw b (by simp [hb])⟩, rfl⟩

theorem opt_some {r : Rx} {s t : List Char} {c : Caps} (h : r.M s t c) : (opt r).M s t c := Or.inl h
theorem opt_none (r : Rx) (s : List Char) : (opt r).M s s [] := Or.inr ⟨rfl, rfl⟩
theorem seq_mk {a b : Rx} {s u t : List Char} {c1 c2 : Caps} (h1 : a.M s u c1) (h2 : b.M u t c2) : (seq a b).M s t (c1 ++ c2) :=
  ⟨u, c1, c2, h1, h2, rfl⟩
theorem seq_mk0 {a b : Rx} {s u t : List Char} (h1 : a.M s u []) (h2 : b.M u t []) : (seq a b).M s t [] := ⟨u, [], [], h1, h2, rfl⟩
theorem chr_M {a : Char} {s t : List Char} {c : Caps} : (chr a).M s t c ↔ s = a :: t ∧ c = [] := by
  constructor
  · rintro ⟨b, rfl, hb, rfl⟩
    exact ⟨by rw [beq_iff_eq.1 hb], rfl⟩
  · rintro ⟨rfl, rfl⟩
    exact ⟨a, rfl, by simp, rfl⟩

/-- No captures. -/
def nocap : Rx → Bool
  | .eps => true
  | .cls _ => true
  | .seq a b => a.nocap && b.nocap
  | .alt a b => a.nocap && b.nocap
  | .star a => a.nocap
  | .grp _ _ => false
  | .nla _ => true

theorem M.nocap {r : Rx} : ∀ {s t : List Char} {c : Caps}, r.nocap = true → r.M s t c → c = [] := by
  induction r with
  | eps => rintro s t c - ⟨-, h⟩; exact h
  | cls p => rintro s t c - ⟨a, -, -, h⟩; exact h
  | seq a b iha ihb =>
    rintro s t c hn ⟨u, c1, c2, h1, h2, rfl⟩
    rw [Rx.nocap, Bool.and_eq_true] at hn
    rw [iha hn.1 h1, ihb hn.2 h2]; rfl
  | alt a b iha ihb =>
    rintro s t c hn (h | h)
    · rw [Rx.nocap, Bool.and_eq_true] at hn
      exact iha hn.1 h
    · rw [Rx.nocap, Bool.and_eq_true] at hn
      exact ihb hn.2 h
  | star a iha =>
    intro s t c hn h
    induction h with
    | nil s => rfl
    | cons h1 h2 ih => rw [iha hn h1, ih]; rfl
  | grp k a iha => intro s t c hn; cases hn
  | nla a _ => rintro s t c - ⟨-, h, -⟩; exact h

/-- If a character does not occur in the expression and follows it, the match ends at its first occurrence. -/
theorem M.stop {r : Rx} {x : Char} (hx : r.chs x = false) {w t u : List Char} {c : Caps} (hw : x ∉ w) (h : r.M (w ++ x :: t) (x :: u) c) : u = t := by
  obtain ⟨v, hv, f⟩ := h.fits
  have hv' : x ∉ v := fun hm => by rw [f.chs x hm] at hx; cases hx
  rcases List.append_eq_append_iff.1 hv with ⟨a, ha, hb⟩ | ⟨a, ha, hb⟩
  · cases a with
    | nil => simp at hb; exact hb.symm
    | cons a1 a =>
      obtain ⟨rfl, -⟩ := List.cons.inj hb
      exact absurd (ha ▸ by simp) hv'
  · cases a with
    | nil => simp at hb; exact hb
    | cons a1 a =>
      obtain ⟨rfl, -⟩ := List.cons.inj hb
      exact absurd (ha ▸ by simp) hw

theorem M.stop' {r : Rx} {x : Char} {w t u s : List Char} {c : Caps} (h : r.M s (x :: u) c) (hx : r.chs x = false) (hw : x ∉ w) (hs : s = w ++ x :: t) : u = t := by
  subst hs; exact M.stop hx hw h

end DD.Rx
