import Verif.Model.Measure
import Verif.MeasureSpec
import Verif.Proofs.RealEx

/-!
# Measurement probabilities
-/

namespace DD

section mass
variable {R : Type} [Field R]

/-- Sum of the squared magnitudes over all paths whose bit `q` is `b` (all paths, if there is no qubit `q`). -/
def mass (t : UTable (Cx R) 2) (q : Nat) (b : Fin 2) (l : Nat) (e : PEdge R) : R :=
  ∑ d : Fin l → Fin 2, if ∀ h : q < l, d ⟨q, h⟩ = b then (amp t l e d).mag2 else 0

variable {t : UTable (Cx R) 2} {q : Nat} {b : Fin 2}

theorem mass_smul (l : Nat) (e : PEdge R) : mass t q b l e = e.w.mag2 * mass t q b l ⟨e.p, 1⟩ := by
  unfold mass
  rw [Finset.mul_sum]
  refine Finset.sum_congr rfl fun d _ => ?_
  rw [amp_eq_smul, Cx.mag2_mul]
  split
  · rfl
  · rw [mul_zero]

theorem mass_w_zero {l : Nat} {e : PEdge R} (h : e.w = 0) : mass t q b l e = 0 := by
  rw [mass_smul, h]; simp

theorem mass_node {l a : Nat} {e : PEdge R} (hp : e.p = some a) :
    mass t q b (l + 1) e = e.w.mag2 * ∑ c : Fin 2, if l = q ∧ c ≠ b then 0 else mass t q b l ((t.mem a).e c) := by
  unfold mass
  rw [sum_snoc, Finset.mul_sum]
  refine Finset.sum_congr rfl fun c _ => ?_
  by_cases hq : l = q
  · subst hq
    by_cases hc : c = b
    · rw [if_neg (by simp [hc]), Finset.mul_sum]
      refine Finset.sum_congr rfl fun d _ => ?_
      rw [if_pos, if_pos (fun h => absurd h (lt_irrefl _)), amp_snoc hp, Cx.mag2_mul]
      intro h
      have : (⟨l, h⟩ : Fin (l + 1)) = Fin.last l := rfl
      rw [this, Fin.snoc_last, hc]
    · rw [if_pos ⟨rfl, hc⟩, mul_zero, Finset.sum_eq_zero]
      intro d _
      rw [if_neg]
      intro h
      have := h (Nat.lt_succ_self l)
      have e : (⟨l, Nat.lt_succ_self l⟩ : Fin (l + 1)) = Fin.last l := rfl
      rw [e, Fin.snoc_last] at this
      exact hc this
  · rw [if_neg (by simp [hq]), Finset.mul_sum]
    refine Finset.sum_congr rfl fun d _ => ?_
    have : (∀ h : q < l + 1, (Fin.snoc (α := fun _ => Fin 2) d c) ⟨q, h⟩ = b) ↔ ∀ h : q < l, d ⟨q, h⟩ = b := by
      constructor
      · intro h hl
        have := h (by omega)
        have e : (⟨q, by omega⟩ : Fin (l + 1)) = Fin.castSucc ⟨q, hl⟩ := rfl
        rw [e, Fin.snoc_castSucc] at this
        exact this
      · intro h hl
        have hl' : q < l := by omega
        have e : (⟨q, hl⟩ : Fin (l + 1)) = Fin.castSucc ⟨q, hl'⟩ := rfl
        rw [e, Fin.snoc_castSucc]
        exact h hl'
    simp only [this]
    rw [amp_snoc hp, Cx.mag2_mul]
    split
    · rfl
    · rw [mul_zero]

theorem mass_outProb {l : Nat} {e : PEdge R} {q : Fin l} : mass t q b l e = outProb (vec t l e) q b := by
  unfold mass outProb vec
  refine Finset.sum_congr rfl fun d _ => ?_
  have : (∀ h : (q : Nat) < l, d ⟨q, h⟩ = b) ↔ d q = b := ⟨fun h => h q.isLt, fun h _ => h⟩
  simp only [this]

end mass

variable {R : Type} [Field R] [LinearOrder R] [IsStrictOrderedRing R] [HasSqrt R] [LawfulSqrt R]
variable {H : (Fin 2 → PEdge R) → Nat} {t : UTable (Cx R) 2}

theorem DDWF.mag_sum (hd : DDWF (k := .v) H t) {a : Nat} (ha : a ∈ t.all) :
    ((t.mem a).e 0).w.mag2 + ((t.mem a).e 1).w.mag2 = 1 := by
  have hn : IsNormV (fun i => ((t.mem a).e i).w) := hd.norm a ha
  rcases hn with ⟨h0, h1⟩ | ⟨h0, h1⟩ | ⟨_, _, h2, _⟩
  · simp only at h0 h1; rw [h0, h1]; simp
  · simp only at h0 h1; rw [h0, h1]; simp
  · exact h2

/-- Below the measured qubit the mass is the squared magnitude of the weight. -/
theorem DDWF.mass_eq (hd : DDWF (k := .v) H t) {q : Nat} {b : Fin 2} : ∀ {l : Nat} {e : PEdge R}, l ≤ q → Valid t l e →
    mass t q b l e = e.w.mag2
  | 0, e, _, _ => by unfold mass; rw [sum_zero]; simp [amp]
  | l + 1, e, hl, hv => by
    by_cases hw : e.w = 0
    · rw [mass_w_zero hw, hw]; simp
    · obtain ⟨a, hp, ha, hlv⟩ := hv.exists_node hw
      rw [mass_node hp, Fin.sum_univ_two, if_neg (by omega), if_neg (by omega),
        DDWF.mass_eq hd (by omega) (hd.childAt (k := .v) ha hlv 0), DDWF.mass_eq hd (by omega) (hd.childAt (k := .v) ha hlv 1),
        hd.mag_sum ha, mul_one]

/-! ## assignProbabilities -/

/-- The map holds correct values and is closed under successors. -/
structure MemoOK (t : UTable (Cx R) 2) (m : Option Nat → Option R) : Prop where
  one : ∀ p r, m p = some r → r = 1
  closed : ∀ a, m (some a) ≠ none → ∀ c, m ((t.mem a).e c).p ≠ none

theorem assignF_spec (hd : DDWF (k := .v) H t) : ∀ (l : Nat) (e : PEdge R) (m : Option Nat → Option R), Valid t l e →
    MemoOK t m → MemoOK t (Pkg.assignF t l e m).1 ∧ (∀ p, m p ≠ none → (Pkg.assignF t l e m).1 p ≠ none) ∧
      (Pkg.assignF t l e m).1 e.p ≠ none ∧ (Pkg.assignF t l e m).2 = e.w.mag2 := by
  have term : ∀ (e : PEdge R) (m : Option Nat → Option R), e.p = none → MemoOK t m → m none = none →
      MemoOK t (Function.update m none (some (1 : R))) ∧ (∀ p, m p ≠ none → Function.update m none (some (1 : R)) p ≠ none) ∧
      Function.update m none (some (1 : R)) e.p ≠ none := by
    intro e m hp hm hn
    have key : ∀ p, m p ≠ none → Function.update m none (some (1 : R)) p ≠ none := by
      intro p h
      by_cases hpn : p = none
      · subst hpn; simp
      · rw [Function.update_of_ne hpn]; exact h
    refine ⟨⟨?_, ?_⟩, key, by rw [hp]; simp⟩
    · intro p r h
      by_cases hpn : p = none
      · subst hpn; simpa using h.symm
      · rw [Function.update_of_ne hpn] at h; exact hm.one p r h
    · intro a h c
      rw [Function.update_of_ne (by simp)] at h
      exact key _ (hm.closed a h c)
  intro l
  induction l with
  | zero =>
    intro e m hv hm
    have hp := hv.term
    unfold Pkg.assignF
    rw [hp]
    cases hmn : m none with
    | some r =>
      dsimp only
      refine ⟨hm, fun p h => h, by rw [hmn]; simp, ?_⟩
      rw [hm.one _ _ hmn, mul_one]
    | none =>
      dsimp only
      obtain ⟨h1, h2, h3⟩ := term e m hp hm hmn
      rw [hp] at h3
      exact ⟨h1, h2, h3, mul_one _⟩
  | succ l ih =>
    intro e m hv hm
    unfold Pkg.assignF
    cases hmn : m e.p with
    | some r =>
      dsimp only
      refine ⟨hm, fun p h => h, by rw [hmn]; simp, ?_⟩
      rw [hm.one _ _ hmn, mul_one]
    | none =>
      dsimp only
      cases hp : e.p with
      | none =>
        rw [hp] at hmn
        dsimp only
        obtain ⟨h1, h2, h3⟩ := term e m hp hm hmn
        rw [hp] at h3
        exact ⟨h1, h2, h3, mul_one _⟩
      | some a =>
        dsimp only
        have hv' := hv
        rw [valid_some hp] at hv'
        have hlv : (t.mem a).v = l := by omega
        obtain ⟨a1, a2, a3, a4⟩ := ih ((t.mem a).e 0) m (hd.childAt (k := .v) hv'.1 hlv 0) hm
        generalize Pkg.assignF t l ((t.mem a).e 0) m = r0 at a1 a2 a3 a4
        obtain ⟨b1, b2, b3, b4⟩ := ih ((t.mem a).e 1) r0.1 (hd.childAt (k := .v) hv'.1 hlv 1) a1
        generalize Pkg.assignF t l ((t.mem a).e 1) r0.1 = r1 at b1 b2 b3 b4
        have hs : r0.2 + r1.2 = 1 := by rw [a4, b4, hd.mag_sum hv'.1]
        rw [hs]
        have key : ∀ p, r1.1 p ≠ none → Function.update r1.1 (some a) (some (1 : R)) p ≠ none := by
          intro p h
          by_cases hpa : p = some a
          · subst hpa; simp
          · rw [Function.update_of_ne hpa]; exact h
        refine ⟨⟨?_, ?_⟩, fun p h => key _ (b2 _ (a2 _ h)), by simp, mul_one _⟩
        · intro p r h
          by_cases hpa : p = some a
          · subst hpa; simpa using h.symm
          · rw [Function.update_of_ne hpa] at h; exact b1.one p r h
        · intro a' h c
          by_cases hpa : a' = a
          · subst hpa
            apply key
            fin_cases c
            · exact b2 _ a3
            · exact b3
          · rw [Function.update_of_ne (by simpa using hpa)] at h
            exact key _ (b1.closed a' h c)

/-! ## The breadth-first search -/

/-- Level of a node. -/
def plev (t : UTable (Cx R) 2) : Option Nat → Nat
  | none => 0
  | some a => (t.mem a).v

omit [LinearOrder R] [IsStrictOrderedRing R] [HasSqrt R] [LawfulSqrt R] in
theorem sum_map_update {α : Type} [DecidableEq α] {f g : α → R} {p : α} {y : R} : ∀ {l : List α}, l.Nodup → p ∈ l →
    (l.map (fun x => Function.update f p y x * g x)).sum = (l.map (fun x => f x * g x)).sum + (y - f p) * g p
  | [], _, h => absurd h (by simp)
  | x :: l, hn, h => by
    rw [List.nodup_cons] at hn
    by_cases hx : p = x
    · subst hx
      have : l.map (fun x => Function.update f p y x * g x) = l.map (fun x => f x * g x) := by
        apply List.map_congr_left
        intro z hz
        rw [Function.update_of_ne]
        rintro rfl; exact hn.1 hz
      rw [List.map_cons, List.map_cons, List.sum_cons, List.sum_cons, this, Function.update_self]
      ring
    · have hm : p ∈ l := by
        rcases List.mem_cons.1 h with h | h
        · exact absurd h hx
        · exact h
      rw [List.map_cons, List.map_cons, List.sum_cons, List.sum_cons, sum_map_update hn.2 hm,
        Function.update_of_ne (fun e => hx e.symm)]
      ring

/-- Invariant of the search: `v` is the level of the node being expanded, `T` the mass to be conserved. `D` is an arbitrary
property of nodes that successors inherit. -/
structure BInv (t : UTable (Cx R) 2) (q : Nat) (D : Option Nat → Prop) (T : Fin 2 → R) (v : Nat) (b : Bfs R) : Prop where
  nodup : b.queue.Nodup
  node : ∀ p ∈ b.queue, D p ∧ ∃ a, p = some a ∧ a ∈ t.all ∧ q ≤ (t.mem a).v ∧ v ≤ (t.mem a).v + 1 ∧ (t.mem a).v ≤ v
  sorted : b.queue.Pairwise (fun p p' => plev t p' ≤ plev t p)
  sub : ∀ p ∈ b.queue, p ∈ b.visited
  seen : ∀ p ∈ b.visited, p ∉ b.queue → v ≤ plev t p
  total : ∀ c, (b.queue.map (fun p => b.prob p * mass t q c (plev t p + 1) ⟨p, 1⟩)).sum = T c

/-- Number of nodes that have not been visited. -/
def unvisited (t : UTable (Cx R) 2) (b : Bfs R) : Nat := (t.all.toFinset.image some \ b.visited.toFinset).card

theorem bfsEdge_spec {q v : Nat} {D : Option Nat → Prop} {T : Fin 2 → R} {b : Bfs R} (hb : BInv t q D T v b) (hq : q < v)
    {e : PEdge R} (he : Valid t v e) (hD : e.w ≠ 0 → D e.p) (pr : R) :
    BInv t q D (fun c => T c + pr * mass t q c v e) v (Pkg.bfsEdge pr b e) ∧
    (e.w ≠ 0 → e.p ∈ (Pkg.bfsEdge pr b e).queue) ∧ (∀ p ∈ b.queue, p ∈ (Pkg.bfsEdge pr b e).queue) ∧
    unvisited t (Pkg.bfsEdge pr b e) + (Pkg.bfsEdge pr b e).queue.length ≤ unvisited t b + b.queue.length := by
  unfold Pkg.bfsEdge
  by_cases hw : e.w = 0
  · rw [if_pos hw]
    refine ⟨?_, fun h => absurd hw h, fun p h => h, le_rfl⟩
    have : (fun c => T c + pr * mass t q c v e) = T := by
      funext c; rw [mass_w_zero hw, mul_zero, add_zero]
    rw [this]; exact hb
  · rw [if_neg hw]
    obtain ⟨v', rfl⟩ : ∃ v', v = v' + 1 := ⟨v - 1, by omega⟩
    obtain ⟨a, hp, ha, hl⟩ := he.exists_node hw
    have hlev : plev t e.p = v' := by rw [hp]; exact hl
    have hmass : ∀ c, mass t q c (v' + 1) e = e.w.mag2 * mass t q c (plev t e.p + 1) ⟨e.p, 1⟩ := by
      intro c; rw [mass_smul, hlev]
    by_cases hvis : e.p ∈ b.visited
    · dsimp only
      rw [if_pos hvis]
      have hin : e.p ∈ b.queue := by
        by_contra h
        have := hb.seen _ hvis h
        omega
      refine ⟨⟨hb.nodup, hb.node, hb.sorted, hb.sub, hb.seen, fun c => ?_⟩, fun _ => hin, fun p h => h, le_rfl⟩
      dsimp only
      rw [sum_map_update hb.nodup hin, hb.total c, hmass]
      ring
    · dsimp only
      rw [if_neg hvis]
      have hnin : e.p ∉ b.queue := fun h => hvis (hb.sub _ h)
      refine ⟨⟨?_, ?_, ?_, ?_, ?_, fun c => ?_⟩, fun _ => by simp, fun p h => by simp [h], ?_⟩
      · rw [List.nodup_append]
        refine ⟨hb.nodup, by simp, ?_⟩
        rintro x hx y hy rfl
        simp only [List.mem_singleton] at hy
        exact hnin (hy ▸ hx)
      · intro p h
        rcases List.mem_append.1 h with h | h
        · exact hb.node p h
        · simp only [List.mem_singleton] at h
          subst h
          exact ⟨hD hw, a, hp, ha, by omega, by omega, by omega⟩
      · rw [List.pairwise_append]
        refine ⟨hb.sorted, by simp, ?_⟩
        intro x hx y hy
        simp only [List.mem_singleton] at hy
        obtain ⟨_, a', rfl, _, _, h2, _⟩ := hb.node x hx
        rw [hy, hlev]
        show v' ≤ (t.mem a').v
        omega
      · intro p h
        rcases List.mem_append.1 h with h | h
        · exact List.mem_cons_of_mem _ (hb.sub p h)
        · simp only [List.mem_singleton] at h
          rw [h]; exact List.mem_cons_self
      · intro p hpv hpq
        rcases List.mem_cons.1 hpv with rfl | h
        · exact absurd (by simp) hpq
        · exact hb.seen p h (fun hh => hpq (List.mem_append_left _ hh))
      · dsimp only
        rw [List.map_append, List.sum_append, List.map_singleton, List.sum_singleton, Function.update_self, hmass]
        have : b.queue.map (fun p => Function.update b.prob e.p (pr * e.w.mag2) p * mass t q c (plev t p + 1) ⟨p, 1⟩) =
            b.queue.map (fun p => b.prob p * mass t q c (plev t p + 1) ⟨p, 1⟩) := by
          apply List.map_congr_left
          intro z hz
          rw [Function.update_of_ne]
          rintro rfl; exact hnin hz
        rw [this, hb.total c]
        ring
      · unfold unvisited
        dsimp only
        have hmem : e.p ∈ t.all.toFinset.image some \ b.visited.toFinset := by
          rw [Finset.mem_sdiff]
          refine ⟨?_, by simpa using hvis⟩
          rw [hp]
          exact Finset.mem_image_of_mem _ (by simpa using ha)
        have : t.all.toFinset.image some \ (e.p :: b.visited).toFinset =
            (t.all.toFinset.image some \ b.visited.toFinset).erase e.p := by
          rw [List.toFinset_cons, Finset.sdiff_insert]
        rw [this, Finset.card_erase_of_mem hmem]
        have := Finset.card_pos.2 ⟨_, hmem⟩
        simp
        omega

/-- The search ends with the nodes at level `q`, without losing mass. -/
theorem bfsLoop_spec (hd : DDWF (k := .v) H t) {q : Nat} {D : Option Nat → Prop} {T : Fin 2 → R}
    (hD : ∀ a ∈ t.all, D (some a) → ∀ c, ((t.mem a).e c).w ≠ 0 → D ((t.mem a).e c).p) :
    ∀ (fuel v : Nat) (b : Bfs R), BInv t q D T v b → b.queue ≠ [] → unvisited t b + b.queue.length ≤ fuel →
    ∃ b', Pkg.bfsLoop t q fuel b = some b' ∧
      (∀ p ∈ b'.queue, D p ∧ ∃ a, p = some a ∧ a ∈ t.all ∧ (t.mem a).v = q) ∧
      ∀ c, (b'.queue.map (fun p => b'.prob p * mass t q c (q + 1) ⟨p, 1⟩)).sum = T c := by
  intro fuel
  induction fuel with
  | zero =>
    intro v b _ hne hle
    exfalso
    have := List.length_pos_of_ne_nil hne
    omega
  | succ f ih =>
    intro v b hb hne hle
    unfold Pkg.bfsLoop
    cases hqq : b.queue with
    | nil => exact absurd hqq hne
    | cons p qs =>
      obtain ⟨hDp, a, rfl, ha, hqa, hv1, hv2⟩ := hb.node p (by rw [hqq]; simp)
      have hs := hb.sorted
      rw [hqq, List.pairwise_cons] at hs
      have hnd := hb.nodup
      rw [hqq, List.nodup_cons] at hnd
      dsimp only
      by_cases hv : (t.mem a).v = q
      · rw [if_pos hv]
        have hall : ∀ p ∈ b.queue, ∃ a, p = some a ∧ a ∈ t.all ∧ (t.mem a).v = q := by
          intro p hp
          obtain ⟨_, a', rfl, h1, h2, _⟩ := hb.node p hp
          refine ⟨a', rfl, h1, ?_⟩
          rw [hqq] at hp
          rcases List.mem_cons.1 hp with h | h
          · cases h; exact hv
          · have h3 : (t.mem a').v ≤ (t.mem a).v := hs.1 _ h
            omega
        refine ⟨b, rfl, fun p hp => ⟨(hb.node p hp).1, hall p hp⟩, fun c => ?_⟩
        rw [← hb.total c]
        congr 1
        apply List.map_congr_left
        intro p hp
        obtain ⟨a', rfl, _, h3⟩ := hall p hp
        show _ = _ * mass t q c ((t.mem a').v + 1) _
        rw [h3]
      · rw [if_neg hv]
        -- the state after removing the front, relative to the level of the front
        have hb0 : BInv t q D (fun c => T c - b.prob (some a) * mass t q c ((t.mem a).v + 1) ⟨some a, 1⟩) (t.mem a).v
            { b with queue := qs } := by
          refine ⟨hnd.2, ?_, hs.2, ?_, ?_, ?_⟩
          · intro p hp
            obtain ⟨h0, a', rfl, h1, h2, h3, h4⟩ := hb.node p (by rw [hqq]; exact List.mem_cons_of_mem _ hp)
            have h5 : (t.mem a').v ≤ (t.mem a).v := hs.1 _ hp
            exact ⟨h0, a', rfl, h1, h2, by omega, h5⟩
          · intro p hp
            exact hb.sub p (by rw [hqq]; exact List.mem_cons_of_mem _ hp)
          · intro p hpv hpq
            by_cases hpa : p = some a
            · rw [hpa]; exact le_rfl
            · have := hb.seen p hpv (by
                rw [hqq]; intro h
                rcases List.mem_cons.1 h with h | h
                · exact hpa h
                · exact hpq h)
              omega
          · intro c
            have := hb.total c
            rw [hqq, List.map_cons, List.sum_cons] at this
            rw [← this]
            show _ = b.prob (some a) * mass t q c ((t.mem a).v + 1) ⟨some a, 1⟩ + _ - _
            ring
        have hlt : q < (t.mem a).v := by omega
        have c0 := hd.childAt (k := .v) ha rfl 0
        have c1 := hd.childAt (k := .v) ha rfl 1
        obtain ⟨s1, s2, s3, s4⟩ := bfsEdge_spec hb0 hlt c0 (hD a ha hDp 0) (b.prob (some a))
        generalize Pkg.bfsEdge (b.prob (some a)) { b with queue := qs } ((t.mem a).e 0) = b1 at s1 s2 s3 s4 ⊢
        obtain ⟨u1, u2, u3, u4⟩ := bfsEdge_spec s1 hlt c1 (hD a ha hDp 1) (b.prob (some a))
        generalize Pkg.bfsEdge (b.prob (some a)) b1 ((t.mem a).e 1) = b2 at u1 u2 u3 u4 ⊢
        have hT : (fun c => T c - b.prob (some a) * mass t q c ((t.mem a).v + 1) ⟨some a, 1⟩ +
            b.prob (some a) * mass t q c (t.mem a).v ((t.mem a).e 0) +
            b.prob (some a) * mass t q c (t.mem a).v ((t.mem a).e 1)) = T := by
          funext c
          rw [mass_node (a := a) rfl, Fin.sum_univ_two, if_neg (by omega), if_neg (by omega)]
          simp
          ring
        rw [hT] at u1
        refine ih (t.mem a).v b2 u1 ?_ ?_
        · obtain ⟨i, hi⟩ := (hd.norm a ha).ne_zero
          have : ((t.mem a).e i).p ∈ b2.queue := by
            revert hi
            fin_cases i
            · intro hi; exact u3 _ (s2 hi)
            · intro hi; exact u2 hi
          exact List.ne_nil_of_mem this
        · rw [hqq, List.length_cons] at hle
          have : unvisited t { b with queue := qs } = unvisited t b := rfl
          rw [this] at s4
          dsimp only at s4
          omega

/-- The probabilities returned are those of the specification, for both settings of the flag. -/
theorem determine_spec {s : Pkg R} (hd : DDWF (k := .v) H (s.ut .v)) {l : Nat} {x : PEdge R} (hx : Valid (s.ut .v) l x)
    (hw : x.w ≠ 0) (q : Fin l) (assumeNorm : Bool) :
    ∃ N, ∀ fuel, N ≤ fuel → s.determineMeasurementProbabilities x q assumeNorm fuel =
      some (outProb (vec (s.ut .v) l x) q 0, outProb (vec (s.ut .v) l x) q 1) := by
  obtain ⟨l, rfl⟩ : ∃ l', l = l' + 1 := ⟨l - 1, by have := q.isLt; omega⟩
  obtain ⟨a, hp, ha, hl⟩ := hx.exists_node hw
  -- the map of assignProbabilities
  have hlvl : s.lv .v x = l + 1 := hx.lvl hw
  have m0 : MemoOK (s.ut .v) (fun _ => (none : Option R)) := ⟨fun p r h => by simp at h, fun a h => by simp at h⟩
  obtain ⟨as1, _, as3, _⟩ := assignF_spec hd (l + 1) x (fun _ => none) hx m0
  let probs := (Pkg.assignF (s.ut .v) (l + 1) x (fun _ => none)).1
  let D : Option Nat → Prop := fun p => probs p ≠ none
  let b0 : Bfs R := ⟨Function.update (fun _ => 0) x.p x.w.mag2, [x.p], [x.p]⟩
  have hlev : plev (s.ut .v) x.p = l := by rw [hp]; exact hl
  have hb : BInv (s.ut .v) q D (fun c => mass (s.ut .v) q c (l + 1) x) l b0 := by
    refine ⟨by simp [b0], ?_, by simp [b0], by simp [b0], ?_, ?_⟩
    · intro p h
      simp only [b0, List.mem_singleton] at h
      subst h
      have := q.isLt
      exact ⟨as3, a, hp, ha, by omega, by omega, by omega⟩
    · intro p h1 h2; exact absurd h1 h2
    · intro c
      show (List.map _ [x.p]).sum = _
      rw [List.map_singleton, List.sum_singleton, show b0.prob x.p = x.w.mag2 from by simp [b0], hlev, ← mass_smul]
  refine ⟨unvisited (s.ut .v) b0 + b0.queue.length, fun fuel hf => ?_⟩
  obtain ⟨b', e1, h2, h3⟩ := bfsLoop_spec hd (fun a _ h c _ => as1.closed a h c) fuel l b0 hb (by simp [b0]) hf
  unfold Pkg.determineMeasurementProbabilities
  dsimp only
  rw [show (⟨Function.update (fun _ => 0) x.p x.w.mag2, [x.p], [x.p]⟩ : Bfs R) = b0 from rfl, e1]
  dsimp only
  rw [hlvl]
  have hb1 : ∀ p ∈ b'.queue, ∀ c (a : Nat), p = some a → ((s.ut .v).mem a |>.e c).w ≠ 0 →
      (if assumeNorm = true then fun _ => (1 : R) else fun p => (probs p).getD 0) (((s.ut .v).mem a).e c).p = 1 := by
    intro p hp c a hpa _
    obtain ⟨hDp, _⟩ := h2 p hp
    rw [hpa] at hDp
    have := as1.closed a hDp c
    cases assumeNorm with
    | true => rfl
    | false =>
      simp only [Bool.false_eq_true, if_false]
      cases hr : probs (((s.ut .v).mem a).e c).p with
      | none => exact absurd hr this
      | some r => rw [as1.one _ _ hr]; rfl
  have key : ∀ c, (b'.queue.map (Pkg.outcomePart (s.ut .v) b'.prob
      (if assumeNorm = true then fun _ => (1 : R) else fun p => (probs p).getD 0) c)).sum =
      outProb (vec (s.ut .v) (l + 1) x) q c := by
    intro c
    rw [← mass_outProb, ← h3 c]
    congr 1
    apply List.map_congr_left
    intro p hp
    obtain ⟨_, a, rfl, ha, hv⟩ := h2 p hp
    rw [mass_node (a := a) rfl]
    have hs : ∑ c' : Fin 2, (if (q : Nat) = q ∧ c' ≠ c then 0 else mass (s.ut .v) q c q (((s.ut .v).mem a).e c')) =
        mass (s.ut .v) q c q (((s.ut .v).mem a).e c) := by
      rw [Finset.sum_eq_single c]
      · rw [if_neg (by simp)]
      · intro b _ hb; rw [if_pos ⟨rfl, hb⟩]
      · intro h; exact absurd (Finset.mem_univ _) h
    rw [hs, hd.mass_eq le_rfl (hd.childAt (k := .v) ha hv c)]
    unfold Pkg.outcomePart
    dsimp only
    by_cases hw0 : (((s.ut .v).mem a).e c).w = 0
    · rw [if_pos hw0, hw0]; simp
    · rw [if_neg hw0, hb1 _ hp c a rfl hw0]; simp
  rw [show (fun p => ((Pkg.assignF (s.ut .v) (l + 1) x fun _ => none).1 p).getD 0) = fun p => (probs p).getD 0 from rfl]
  rw [key 0, key 1]

end DD

namespace DD

variable {R : Type} [Field R] [LinearOrder R] [IsStrictOrderedRing R] [HasSqrt R] [LawfulSqrt R]
variable {H : (Fin 2 → PEdge R) → Nat} {t : UTable (Cx R) 2}

/-! ## measureAll -/

/-- The loop of `measureAll`: the draws that lead to the bits `d` form a box whose volume is the squared magnitude of the
amplitude of `d`, and every sequence of draws lies in exactly one box. -/
theorem measureF_spec (hd : DDWF (k := .v) H t) {eps : R} (heps : 0 ≤ eps) : ∀ (l : Nat) (e : PEdge R), Valid t l e → e.w ≠ 0 →
    ∃ lo hi : (Fin l → Fin 2) → Fin l → R, (∀ d i, 0 ≤ lo d i ∧ lo d i ≤ hi d i ∧ hi d i ≤ 1) ∧
      (∀ d, ∏ i, (hi d i - lo d i) = (amp t l ⟨e.p, 1⟩ d).mag2) ∧
      ∀ (draw : Nat → R) (res : Nat → Char), (∀ i < l, 0 ≤ draw i ∧ draw i < 1) → (∀ i < l, res i = '0') →
        ∃ d r, Pkg.measureF t eps draw l e res = some r ∧ (∀ i : Fin l, r i = if d i = 1 then '1' else '0') ∧
          (∀ i, l ≤ i → r i = res i) ∧ ∀ d', d' = d ↔ ∀ i : Fin l, lo d' i ≤ draw i ∧ draw i < hi d' i := by
  intro l
  induction l with
  | zero =>
    intro e _ _
    refine ⟨fun _ _ => 0, fun _ _ => 1, fun _ i => i.elim0, fun d => ?_, fun draw res _ _ => ?_⟩
    · simp [amp]
    · exact ⟨Fin.elim0, res, rfl, fun i => i.elim0, fun _ _ => rfl, fun d' => ⟨fun _ i => i.elim0, fun _ => funext fun i => i.elim0⟩⟩
  | succ l ih =>
    intro e hv hw
    obtain ⟨a, hp, ha, hl⟩ := hv.exists_node hw
    have hc := fun c => hd.childAt (k := .v) ha hl c
    have hsum := hd.mag_sum ha
    have key : ∀ c : Fin 2, ∃ lo hi : (Fin l → Fin 2) → Fin l → R, (∀ d i, 0 ≤ lo d i ∧ lo d i ≤ hi d i ∧ hi d i ≤ 1) ∧
        (((t.mem a).e c).w ≠ 0 → (∀ d, ∏ i, (hi d i - lo d i) = (amp t l ⟨((t.mem a).e c).p, 1⟩ d).mag2) ∧
        ∀ (draw : Nat → R) (res : Nat → Char), (∀ i < l, 0 ≤ draw i ∧ draw i < 1) → (∀ i < l, res i = '0') →
        ∃ d r, Pkg.measureF t eps draw l ((t.mem a).e c) res = some r ∧ (∀ i : Fin l, r i = if d i = 1 then '1' else '0') ∧
          (∀ i, l ≤ i → r i = res i) ∧ ∀ d', d' = d ↔ ∀ i : Fin l, lo d' i ≤ draw i ∧ draw i < hi d' i) := by
      intro c
      by_cases h0 : ((t.mem a).e c).w = 0
      · exact ⟨fun _ _ => 0, fun _ _ => 1, fun _ _ => ⟨le_rfl, zero_le_one, le_rfl⟩, fun h => absurd h0 h⟩
      · obtain ⟨lo, hi, h1, h2, h3⟩ := ih _ (hc c) h0
        exact ⟨lo, hi, h1, fun _ => ⟨h2, h3⟩⟩
    choose lo hi hbd hcase using key
    set p0 := ((t.mem a).e 0).w.mag2 with hp0
    set p1 := ((t.mem a).e 1).w.mag2 with hp1
    have hp0n : 0 ≤ p0 := Cx.mag2_nonneg _
    have hp1n : 0 ≤ p1 := Cx.mag2_nonneg _
    refine ⟨fun d => Fin.snoc (α := fun _ => R) (lo (d (Fin.last l)) (Fin.init d)) (if d (Fin.last l) = 0 then 0 else p0),
      fun d => Fin.snoc (α := fun _ => R) (hi (d (Fin.last l)) (Fin.init d)) (if d (Fin.last l) = 0 then p0 else 1), ?_, ?_, ?_⟩
    · intro d i
      refine Fin.lastCases ?_ (fun i => ?_) i
      · simp only [Fin.snoc_last]
        split_ifs
        · exact ⟨le_rfl, hp0n, by linarith⟩
        · exact ⟨hp0n, by linarith, le_rfl⟩
      · simp only [Fin.snoc_castSucc]
        exact hbd _ _ _
    · rw [forall_snoc]
      intro d c
      rw [Fin.prod_univ_castSucc]
      simp only [Fin.snoc_castSucc, Fin.snoc_last, Fin.init_snoc]
      rw [amp_snoc (e := ⟨e.p, 1⟩) (a := a) hp, amp_eq_smul, one_mul, Cx.mag2_mul]
      have hlast : ((if c = 0 then p0 else 1) - if c = 0 then 0 else p0) = ((t.mem a).e c).w.mag2 := by
        fin_cases c
        · simp [hp0]
        · show (1 : R) - p0 = p1
          linarith
      rw [hlast]
      by_cases h0 : ((t.mem a).e c).w = 0
      · rw [h0]; simp
      · rw [(hcase c h0).1]; ring
    · intro draw res hdraw hres
      unfold Pkg.measureF
      rw [hp]
      dsimp only
      rw [← hp0, ← hp1, hsum, sub_self, abs_zero, if_neg (not_lt.2 heps), div_one]
      -- the bit chosen at this level
      have step : ∀ (c : Fin 2) (res' : Nat → Char), ((t.mem a).e c).w ≠ 0 → (∀ i < l, res' i = '0') →
          (res' l = if c = 1 then '1' else '0') → (∀ i, l + 1 ≤ i → res' i = res i) → (draw l < p0 ↔ c = 0) →
          ∃ d r, Pkg.measureF t eps draw l ((t.mem a).e c) res' = some r ∧
            (∀ i : Fin (l + 1), r i = if d i = 1 then '1' else '0') ∧
            (∀ i, l + 1 ≤ i → r i = res i) ∧ ∀ d' : Fin (l + 1) → Fin 2, d' = d ↔ ∀ i : Fin (l + 1),
              (Fin.snoc (α := fun _ => R) (lo (d' (Fin.last l)) (Fin.init d')) (if d' (Fin.last l) = 0 then 0 else p0) : Fin (l + 1) → R) i ≤ draw i ∧
              draw i < (Fin.snoc (α := fun _ => R) (hi (d' (Fin.last l)) (Fin.init d')) (if d' (Fin.last l) = 0 then p0 else 1) : Fin (l + 1) → R) i := by
        intro c res' h0 hr1 hr2 hr3 hdr
        obtain ⟨_, h3⟩ := hcase c h0
        obtain ⟨d, r, e1, e2, e3, e4⟩ := h3 draw res' (fun i hi => hdraw i (by omega)) hr1
        refine ⟨Fin.snoc (α := fun _ => Fin 2) d c, r, e1, ?_, fun i hi => by rw [e3 i (by omega), hr3 i hi], ?_⟩
        · intro i
          refine Fin.lastCases ?_ (fun i => ?_) i
          · rw [Fin.snoc_last, Fin.val_last, e3 l le_rfl, hr2]
          · rw [Fin.snoc_castSucc, Fin.val_castSucc, e2 i]
        · rw [forall_snoc]
          intro d' c'
          rw [Fin.forall_fin_succ']
          simp only [Fin.snoc_castSucc, Fin.snoc_last, Fin.init_snoc, Fin.val_castSucc, Fin.val_last]
          have hd0 := hdraw l (by omega)
          have hbit : ((if c' = 0 then 0 else p0) ≤ draw l ∧ draw l < if c' = 0 then p0 else 1) ↔ c' = c := by
            by_cases hc' : c' = 0
            · rw [if_pos hc', if_pos hc']
              constructor
              · intro h; rw [hc', hdr.1 h.2]
              · intro h; exact ⟨hd0.1, hdr.2 (by rw [← h, hc'])⟩
            · rw [if_neg hc', if_neg hc']
              constructor
              · intro h
                have : c ≠ 0 := fun hcc => absurd (hdr.2 hcc) (not_lt.2 h.1)
                omega
              · intro h
                exact ⟨not_lt.1 (fun hlt => hc' (by rw [h, hdr.1 hlt])), hd0.2⟩
          rw [hbit]
          constructor
          · intro h
            have h1 : c' = c := by
              have := congrFun h (Fin.last l)
              rwa [Fin.snoc_last, Fin.snoc_last] at this
            have h2 : d' = d := by
              have := congrArg (fun f => Fin.init (α := fun _ => Fin 2) f) h
              simpa only [Fin.init_snoc] using this
            refine ⟨?_, h1⟩
            rw [h1]
            exact (e4 d').1 h2
          · rintro ⟨h1, h2⟩
            rw [h2] at h1 ⊢
            rw [(e4 d').2 h1]
      by_cases hlt : draw l < p0
      · rw [if_pos hlt]
        refine step 0 res ?_ (fun i hi => hres i (by omega)) (by simp [hres l (by omega)]) (fun _ _ => rfl) (by simp [hlt])
        intro h
        rw [hp0, h] at hlt
        have := hdraw l (by omega)
        simp at hlt
        linarith
      · rw [if_neg hlt]
        refine step 1 _ ?_ (fun i hi => ?_) (by rw [hl]; simp) (fun i hi => ?_) (by simp [hlt])
        · intro h
          rw [h] at hp1
          simp at hp1
          have := hdraw l (by omega)
          linarith
        · rw [Function.update_of_ne (by omega)]; exact hres i (by omega)
        · rw [Function.update_of_ne (by omega)]

/-! ## References -/

omit [LinearOrder R] [IsStrictOrderedRing R] [HasSqrt R] [LawfulSqrt R] in
theorem valid_nvars {n : Nat} {H : (Fin n → PEdge R) → Nat} {t : UTable (Cx R) n} (hu : UTable.UWF H t) {l : Nat} {x : PEdge R} (hx : Valid t l x) (hw : x.w ≠ 0) : l ≤ t.nvars := by
  cases l with
  | zero => exact Nat.zero_le _
  | succ l =>
    obtain ⟨a, _, ha, hl⟩ := hx.exists_node hw
    have := (hu.mem_bucket ha).1
    omega


theorem PReach.nvars_eq {P : PCfg R} (hC : P.C.Good) {h : PHist R} (hr : PReach P h) (k k' : Kind) :
    (h.pkg.ut k).nvars = (h.pkg.ut k').nvars := by
  obtain ⟨h0, hs, hp⟩ := hr
  induction hp with
  | refl => cases hs with | init nq nbV nbM cV cM _ hV hM => cases k <;> cases k' <;> rfl
  | tail h1 h2 ih =>
    have hi := PReach.inv hC ⟨h0, hs, h1⟩
    rcases h2.nvars_cases hC hi with hn | ⟨nq, _, hn⟩
    · rw [hn, hn, ih]
    · rw [(hn k).2, (hn k').2]

theorem PReach.inc_unchanged {P : PCfg R} (hC : P.C.Good) {h : PHist R} (hr : PReach P h) {k : Kind} {l : Nat} {e : PEdge R}
    (hv : Valid (h.pkg.ut k) l e) : Unchanged h.pkg (h.pkg.incRef P k e) := by
  intro k' l' e' hv'
  have := reshape_value ((hr.inv hC).incRef hC k hv).2 (fun k => ((hr.inv hC).wf.tab k).child) k' hv'
  exact ⟨this.1, funext this.2⟩

theorem PReach.dec_unchanged {P : PCfg R} (hC : P.C.Good) {h : PHist R} (hr : PReach P h) {k : Kind} {e : PEdge R}
    (he : e ∈ h.held k) : ∃ s, h.pkg.decRef P k e = some s ∧ Unchanged h.pkg s := by
  obtain ⟨r, _, h2, h3, _⟩ := (hr.inv hC).decRef hC k he
  refine ⟨_, h3, ?_⟩
  intro k' l' e' hv'
  have := reshape_value h2 (fun k => ((hr.inv hC).wf.tab k).child) k' hv'
  exact ⟨this.1, funext this.2⟩

end DD
