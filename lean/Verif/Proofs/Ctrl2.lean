import Verif.Proofs.GateMat
import Verif.Proofs.Use

/-! # Products of gates on two target qubits -/

namespace DD

open Gates Real

section
variable {R : Type} [Field R] {n : Nat}

open Classical in
/-- `A` on the targets if the controls are satisfied, otherwise `B`. -/
noncomputable def sel (A B : Matrix (Fin 4) (Fin 4) (Cx R)) (cs : List Ctrl) (t0 t1 : Fin n) : QMat R n :=
  fun r c => if CtrlOK cs c then twoMat A t0 t1 r c else twoMat B t0 t1 r c

/-- `c` with the bits of the targets replaced. -/
def put (t0 t1 : Fin n) (c : Fin n → Fin 2) (x : Fin 2 × Fin 2) : Fin n → Fin 2 :=
  fun i => if i = t0 then x.1 else if i = t1 then x.2 else c i

theorem twoMat_mul {A B : Matrix (Fin 4) (Fin 4) (Cx R)} {t0 t1 : Fin n} (ht : t0 ≠ t1) (r c : Fin n → Fin 2) :
    ∑ j, twoMat A t0 t1 r j * twoMat B t0 t1 j c = twoMat (A * B) t0 t1 r c := by
  have hinj : Function.Injective (put t0 t1 c) := by
    intro x y h
    have h0 := congrFun h t0
    have h1 := congrFun h t1
    unfold put at h0 h1
    simp only [if_true, if_neg ht.symm] at h0 h1
    exact Prod.ext h0 h1
  rw [← Fintype.sum_of_injective (put t0 t1 c) hinj
    (fun x => twoMat A t0 t1 r (put t0 t1 c x) * twoMat B t0 t1 (put t0 t1 c x) c)]
  · rw [Fintype.sum_prod_type]
    by_cases hrc : ∀ i, i ≠ t0 → i ≠ t1 → r i = c i
    · have e1 : ∀ x, (∀ i, i ≠ t0 → i ≠ t1 → r i = put t0 t1 c x i) := by
        intro x i h0 h1; unfold put; rw [if_neg h0, if_neg h1]; exact hrc i h0 h1
      have e2 : ∀ x, (∀ i, i ≠ t0 → i ≠ t1 → put t0 t1 c x i = c i) := by
        intro x i h0 h1; unfold put; rw [if_neg h0, if_neg h1]
      have e3 : ∀ x, put t0 t1 c x t0 = x.1 := fun x => by unfold put; rw [if_pos rfl]
      have e4 : ∀ x, put t0 t1 c x t1 = x.2 := fun x => by unfold put; rw [if_neg ht.symm, if_pos rfl]
      unfold twoMat
      simp only [if_pos (e1 _), if_pos (e2 _), if_pos hrc, e3, e4, Fin.sum_univ_two, Matrix.mul_apply, Fin.sum_univ_four]
      simp [pair]; ring
    · have e0 : twoMat (A * B) t0 t1 r c = 0 := by unfold twoMat; rw [if_neg hrc]
      rw [e0]
      refine Finset.sum_eq_zero fun a _ => Finset.sum_eq_zero fun b _ => ?_
      have e1 : twoMat A t0 t1 r (put t0 t1 c (a, b)) = 0 := by
        unfold twoMat; rw [if_neg]
        intro h; apply hrc
        intro i h0 h1
        have := h i h0 h1
        unfold put at this; rwa [if_neg h0, if_neg h1] at this
      rw [e1, zero_mul]
  · intro j hj
    have : twoMat B t0 t1 j c = 0 := by
      unfold twoMat; rw [if_neg]
      intro h; apply hj
      refine ⟨(j t0, j t1), ?_⟩
      funext i
      unfold put
      by_cases h0 : i = t0
      · rw [if_pos h0, h0]
      · rw [if_neg h0]
        by_cases h1 : i = t1
        · rw [if_pos h1, h1]
        · rw [if_neg h1]; exact (h i h0 h1).symm
    rw [this, mul_zero]
  · intro x; rfl

/-- The controls do not involve the targets. -/
def Avoid (cs : List Ctrl) (t0 t1 : Fin n) : Prop := ∀ q ∈ cs, q.qubit ≠ t0 ∧ q.qubit ≠ t1

theorem ctrlOK_congr {cs : List Ctrl} {t0 t1 : Fin n} (hc : Avoid cs t0 t1) {r c : Fin n → Fin 2}
    (h : ∀ i, i ≠ t0 → i ≠ t1 → r i = c i) : CtrlOK cs r ↔ CtrlOK cs c := by
  unfold CtrlOK
  refine forall_congr' fun q => forall_congr' fun hq => forall_congr' fun hn => ?_
  obtain ⟨h0, h1⟩ := hc q hq
  rw [h ⟨q.qubit, hn⟩ (fun e => h0 (congrArg Fin.val e)) (fun e => h1 (congrArg Fin.val e))]

theorem sel_mul {A B A' B' : Matrix (Fin 4) (Fin 4) (Cx R)} {cs : List Ctrl} {t0 t1 : Fin n} (ht : t0 ≠ t1)
    (hc : Avoid cs t0 t1) : sel A B cs t0 t1 * sel A' B' cs t0 t1 = sel (A * A') (B * B') cs t0 t1 := by
  classical
  funext r c
  rw [Matrix.mul_apply]
  have key : ∀ j, sel A B cs t0 t1 r j * sel A' B' cs t0 t1 j c =
      if CtrlOK cs c then twoMat A t0 t1 r j * twoMat A' t0 t1 j c else twoMat B t0 t1 r j * twoMat B' t0 t1 j c := by
    intro j
    unfold sel
    by_cases h : ∀ i, i ≠ t0 → i ≠ t1 → j i = c i
    · by_cases hk : CtrlOK cs c
      · rw [if_pos hk, if_pos hk, if_pos ((ctrlOK_congr hc h).2 hk)]
      · rw [if_neg hk, if_neg hk, if_neg (fun e => hk ((ctrlOK_congr hc h).1 e))]
    · have e1 : ∀ M : Fin 4 → Fin 4 → Cx R, twoMat M t0 t1 j c = 0 := fun M => by unfold twoMat; rw [if_neg h]
      have a1 := e1 A'
      have b1 := e1 B'
      rw [a1, b1]; simp
  rw [Finset.sum_congr rfl (fun j _ => key j)]
  unfold sel
  by_cases hk : CtrlOK cs c
  · simp only [if_pos hk]; exact twoMat_mul ht r c
  · simp only [if_neg hk]; exact twoMat_mul ht r c

theorem twoMat_one {t0 t1 : Fin n} (r c : Fin n → Fin 2) :
    twoMat (1 : Matrix (Fin 4) (Fin 4) (Cx R)) t0 t1 r c = if r = c then 1 else 0 := by
  unfold twoMat
  by_cases h : r = c
  · subst h; simp
  · rw [if_neg h]
    by_cases h2 : ∀ i, i ≠ t0 → i ≠ t1 → r i = c i
    · rw [if_pos h2, Matrix.one_apply_ne]
      intro he
      have : ∀ a b a' b' : Fin 2, pair a b = pair a' b' → a = a' ∧ b = b' := by decide
      obtain ⟨e0, e1⟩ := this _ _ _ _ he
      apply h; funext i
      by_cases h0 : i = t0
      · rw [h0, e0]
      · by_cases h1 : i = t1
        · rw [h1, e1]
        · exact h2 i h0 h1
    · rw [if_neg h2]

theorem sel_ctrl (A : Matrix (Fin 4) (Fin 4) (Cx R)) (cs : List Ctrl) (t0 t1 : Fin n) : sel A 1 cs t0 t1 = ctrlTwoMat A cs t0 t1 := by
  classical
  funext r c
  unfold sel ctrlTwoMat
  by_cases h : CtrlOK cs c
  · rw [if_pos h, if_pos h]
  · rw [if_neg h, if_neg h]; exact twoMat_one r c

/-- A gate on the first target controlled by the second. -/
def ctl10 (U : Matrix (Fin 2) (Fin 2) (Cx R)) : Matrix (Fin 4) (Fin 4) (Cx R) :=
  !![1, 0, 0, 0; 0, U 0 0, 0, U 0 1; 0, 0, 1, 0; 0, U 1 0, 0, U 1 1]

/-- A gate on the second target controlled by the first. -/
def ctl01 (U : Matrix (Fin 2) (Fin 2) (Cx R)) : Matrix (Fin 4) (Fin 4) (Cx R) :=
  !![1, 0, 0, 0; 0, 1, 0, 0; 0, 0, U 0 0, U 0 1; 0, 0, U 1 0, U 1 1]

theorem fin2_cases (a : Fin 2) : a = 0 ∨ a = 1 := by revert a; decide

theorem off_split {t0 t1 : Fin n} (r c : Fin n → Fin 2) :
    (∀ i, i ≠ t0 → r i = c i) ↔ (∀ i, i ≠ t0 → i ≠ t1 → r i = c i) ∧ (t1 ≠ t0 → r t1 = c t1) := by
  constructor
  · exact fun h => ⟨fun i h0 _ => h i h0, fun h1 => h t1 h1⟩
  · rintro ⟨h1, h2⟩ i h0
    by_cases e : i = t1
    · subst e; exact h2 h0
    · exact h1 i h0 e

/-- What a gate on the first target is on both. -/
theorem gate_t0 {U : Matrix (Fin 2) (Fin 2) (Cx R)} {cs cs' : List Ctrl} {t0 t1 : Fin n} (ht : t0 ≠ t1)
    {A B : Matrix (Fin 4) (Fin 4) (Cx R)} 
    (hA : ∀ c, CtrlOK cs c → (CtrlOK cs' c → ∀ a a', A (pair a (c t1)) (pair a' (c t1)) = U a a') ∧
       (¬ CtrlOK cs' c → ∀ a a', A (pair a (c t1)) (pair a' (c t1)) = if a = a' then 1 else 0))
    (hA0 : ∀ a a' b b', b ≠ b' → A (pair a b) (pair a' b') = 0)
    (hB : ∀ c, ¬ CtrlOK cs c → (CtrlOK cs' c → ∀ a a', B (pair a (c t1)) (pair a' (c t1)) = U a a') ∧
       (¬ CtrlOK cs' c → ∀ a a', B (pair a (c t1)) (pair a' (c t1)) = if a = a' then 1 else 0))
    (hB0 : ∀ a a' b b', b ≠ b' → B (pair a b) (pair a' b') = 0) :
    gateMat U cs' t0 = sel A B cs t0 t1 := by
  classical
  funext r c
  unfold gateMat sel twoMat
  by_cases h : ∀ i, i ≠ t0 → i ≠ t1 → r i = c i
  · by_cases h1 : r t1 = c t1
    · rw [if_pos ((off_split (t1 := t1) r c).2 ⟨h, fun _ => h1⟩), if_pos h, if_pos h, h1]
      by_cases hk : CtrlOK cs c
      · rw [if_pos hk]
        by_cases hk' : CtrlOK cs' c
        · rw [if_pos hk', (hA c hk).1 hk']
        · rw [if_neg hk', (hA c hk).2 hk']
      · rw [if_neg hk]
        by_cases hk' : CtrlOK cs' c
        · rw [if_pos hk', (hB c hk).1 hk']
        · rw [if_neg hk', (hB c hk).2 hk']
    · rw [if_neg (fun e => h1 (((off_split (t1 := t1) r c).1 e).2 ht.symm)), if_pos h, if_pos h, hA0 _ _ _ _ h1, hB0 _ _ _ _ h1, ite_self]
  · rw [if_neg (fun e => h ((off_split (t1 := t1) r c).1 e).1), if_neg h, if_neg h, ite_self]

/-- What a gate on the second target is on both. -/
theorem gate_t1 {U : Matrix (Fin 2) (Fin 2) (Cx R)} {cs cs' : List Ctrl} {t0 t1 : Fin n} (ht : t0 ≠ t1)
    {A B : Matrix (Fin 4) (Fin 4) (Cx R)} 
    (hA : ∀ c, CtrlOK cs c → (CtrlOK cs' c → ∀ a a', A (pair (c t0) a) (pair (c t0) a') = U a a') ∧
       (¬ CtrlOK cs' c → ∀ a a', A (pair (c t0) a) (pair (c t0) a') = if a = a' then 1 else 0))
    (hA0 : ∀ a a' b b', b ≠ b' → A (pair b a) (pair b' a') = 0)
    (hB : ∀ c, ¬ CtrlOK cs c → (CtrlOK cs' c → ∀ a a', B (pair (c t0) a) (pair (c t0) a') = U a a') ∧
       (¬ CtrlOK cs' c → ∀ a a', B (pair (c t0) a) (pair (c t0) a') = if a = a' then 1 else 0))
    (hB0 : ∀ a a' b b', b ≠ b' → B (pair b a) (pair b' a') = 0) :
    gateMat U cs' t1 = sel A B cs t0 t1 := by
  classical
  funext r c
  unfold gateMat sel twoMat
  by_cases h : ∀ i, i ≠ t0 → i ≠ t1 → r i = c i
  · have h' : ∀ i, i ≠ t1 → i ≠ t0 → r i = c i := fun i a b => h i b a
    by_cases h1 : r t0 = c t0
    · rw [if_pos ((off_split (t1 := t0) r c).2 ⟨h', fun _ => h1⟩), if_pos h, if_pos h, h1]
      by_cases hk : CtrlOK cs c
      · rw [if_pos hk]
        by_cases hk' : CtrlOK cs' c
        · rw [if_pos hk', (hA c hk).1 hk']
        · rw [if_neg hk', (hA c hk).2 hk']
      · rw [if_neg hk]
        by_cases hk' : CtrlOK cs' c
        · rw [if_pos hk', (hB c hk).1 hk']
        · rw [if_neg hk', (hB c hk).2 hk']
    · rw [if_neg (fun e => h1 (((off_split (t1 := t0) r c).1 e).2 ht)), if_pos h, if_pos h, hA0 _ _ _ _ h1, hB0 _ _ _ _ h1, ite_self]
  · rw [if_neg (fun e => h (fun i a b => ((off_split (t1 := t0) r c).1 e).1 i b a)), if_neg h, if_neg h, ite_self]

macro "four" a:ident a':ident b:ident : tactic => `(tactic| (
  rcases fin2_cases $a with h | h <;> rcases fin2_cases $a' with h' | h' <;> rcases fin2_cases $b with h'' | h'' <;>
  simp [h, h', h'', pair, tens, ctl01, ctl10, Matrix.one_apply]))

theorem tens_l (U : Matrix (Fin 2) (Fin 2) (Cx R)) (a a' b : Fin 2) : tens U 1 (pair a b) (pair a' b) = U a a' := by four a a' b
theorem tens_r (U : Matrix (Fin 2) (Fin 2) (Cx R)) (a a' b : Fin 2) : tens 1 U (pair b a) (pair b a') = U a a' := by four a a' b
theorem tens_l0 (U : Matrix (Fin 2) (Fin 2) (Cx R)) (a a' b b' : Fin 2) (h : b ≠ b') : tens U 1 (pair a b) (pair a' b') = 0 := by
  rcases fin2_cases a with rfl | rfl <;> rcases fin2_cases a' with rfl | rfl <;> rcases fin2_cases b with rfl | rfl <;>
    rcases fin2_cases b' with rfl | rfl <;> simp_all [pair, tens]
theorem tens_r0 (U : Matrix (Fin 2) (Fin 2) (Cx R)) (a a' b b' : Fin 2) (h : b ≠ b') : tens 1 U (pair b a) (pair b' a') = 0 := by
  rcases fin2_cases a with rfl | rfl <;> rcases fin2_cases a' with rfl | rfl <;> rcases fin2_cases b with rfl | rfl <;>
    rcases fin2_cases b' with rfl | rfl <;> simp_all [pair, tens]
theorem ctl10_at (U : Matrix (Fin 2) (Fin 2) (Cx R)) (a a' b : Fin 2) :
    ctl10 U (pair a b) (pair a' b) = if b = 1 then U a a' else if a = a' then 1 else 0 := by four a a' b
theorem ctl01_at (U : Matrix (Fin 2) (Fin 2) (Cx R)) (a a' b : Fin 2) :
    ctl01 U (pair b a) (pair b a') = if b = 1 then U a a' else if a = a' then 1 else 0 := by four a a' b
theorem ctl10_0 (U : Matrix (Fin 2) (Fin 2) (Cx R)) (a a' b b' : Fin 2) (h : b ≠ b') : ctl10 U (pair a b) (pair a' b') = 0 := by
  rcases fin2_cases a with rfl | rfl <;> rcases fin2_cases a' with rfl | rfl <;> rcases fin2_cases b with rfl | rfl <;>
    rcases fin2_cases b' with rfl | rfl <;> simp_all [pair, ctl10]
theorem ctl01_0 (U : Matrix (Fin 2) (Fin 2) (Cx R)) (a a' b b' : Fin 2) (h : b ≠ b') : ctl01 U (pair b a) (pair b' a') = 0 := by
  rcases fin2_cases a with rfl | rfl <;> rcases fin2_cases a' with rfl | rfl <;> rcases fin2_cases b with rfl | rfl <;>
    rcases fin2_cases b' with rfl | rfl <;> simp_all [pair, ctl01]
theorem one_l (a a' b : Fin 2) : (1 : Matrix (Fin 4) (Fin 4) (Cx R)) (pair a b) (pair a' b) = if a = a' then 1 else 0 := by four a a' b
theorem one_r (a a' b : Fin 2) : (1 : Matrix (Fin 4) (Fin 4) (Cx R)) (pair b a) (pair b a') = if a = a' then 1 else 0 := by four a a' b
theorem one_l0 (a a' b b' : Fin 2) (h : b ≠ b') : (1 : Matrix (Fin 4) (Fin 4) (Cx R)) (pair a b) (pair a' b') = 0 := by
  rw [Matrix.one_apply_ne]; revert a a' b b' ; decide
theorem one_r0 (a a' b b' : Fin 2) (h : b ≠ b') : (1 : Matrix (Fin 4) (Fin 4) (Cx R)) (pair b a) (pair b' a') = 0 := by
  rw [Matrix.one_apply_ne]; revert a a' b b' ; decide

theorem ctrlOK_nil (c : Fin n → Fin 2) : CtrlOK [] c := fun q hq => absurd hq (by simp)

/-- The list has a positive control on `t` and the controls `cs`. -/
def Plus (cs cs' : List Ctrl) (t : Nat) : Prop := ∀ q, q ∈ cs' ↔ q = Pkg.posCtrl t ∨ q ∈ cs

theorem ctrlOK_plus {cs cs' : List Ctrl} {t : Fin n} (h : Plus cs cs' t) (c : Fin n → Fin 2) :
    CtrlOK cs' c ↔ c t = 1 ∧ CtrlOK cs c := by
  unfold CtrlOK
  constructor
  · intro hc
    exact ⟨by simpa [Pkg.posCtrl] using hc (Pkg.posCtrl t) ((h _).2 (.inl rfl)) t.isLt, fun q hq hn => hc q ((h q).2 (.inr hq)) hn⟩
  · rintro ⟨h1, h2⟩ q hq hn
    rcases (h q).1 hq with rfl | hq
    · simpa [Pkg.posCtrl] using h1
    · exact h2 q hq hn

variable {cs : List Ctrl} {t0 t1 : Fin n} 

theorem gate0 (U : Matrix (Fin 2) (Fin 2) (Cx R)) (ht : t0 ≠ t1) : gateMat U cs t0 = sel (tens U 1) 1 cs t0 t1 :=
  gate_t0 ht (fun c hc => ⟨fun _ a a' => tens_l U a a' _, fun h => absurd hc h⟩) (tens_l0 U)
    (fun c hc => ⟨fun h => absurd h hc, fun _ a a' => one_l a a' _⟩) one_l0

theorem gate1 (U : Matrix (Fin 2) (Fin 2) (Cx R)) (ht : t0 ≠ t1) : gateMat U cs t1 = sel (tens 1 U) 1 cs t0 t1 :=
  gate_t1 ht (fun c hc => ⟨fun _ a a' => tens_r U a a' _, fun h => absurd hc h⟩) (tens_r0 U)
    (fun c hc => ⟨fun h => absurd h hc, fun _ a a' => one_r a a' _⟩) one_r0

theorem gate0f (U : Matrix (Fin 2) (Fin 2) (Cx R)) (ht : t0 ≠ t1) : gateMat U [] t0 = sel (tens U 1) (tens U 1) cs t0 t1 :=
  gate_t0 ht (fun c _ => ⟨fun _ a a' => tens_l U a a' _, fun h => absurd (ctrlOK_nil c) h⟩) (tens_l0 U)
    (fun c _ => ⟨fun _ a a' => tens_l U a a' _, fun h => absurd (ctrlOK_nil c) h⟩) (tens_l0 U)

theorem gate1f (U : Matrix (Fin 2) (Fin 2) (Cx R)) (ht : t0 ≠ t1) : gateMat U [] t1 = sel (tens 1 U) (tens 1 U) cs t0 t1 :=
  gate_t1 ht (fun c _ => ⟨fun _ a a' => tens_r U a a' _, fun h => absurd (ctrlOK_nil c) h⟩) (tens_r0 U)
    (fun c _ => ⟨fun _ a a' => tens_r U a a' _, fun h => absurd (ctrlOK_nil c) h⟩) (tens_r0 U)

theorem gate10 (U : Matrix (Fin 2) (Fin 2) (Cx R)) (ht : t0 ≠ t1) {cs' : List Ctrl} (hp : Plus cs cs' t1) :
    gateMat U cs' t0 = sel (ctl10 U) 1 cs t0 t1 := by
  refine gate_t0 ht (fun c hc => ⟨fun h a a' => ?_, fun h a a' => ?_⟩) (ctl10_0 U)
    (fun c hc => ⟨fun h => absurd ((ctrlOK_plus hp c).1 h).2 hc, fun _ a a' => one_l a a' _⟩) one_l0
  · rw [ctl10_at, if_pos ((ctrlOK_plus hp c).1 h).1]
  · rw [ctl10_at, if_neg (fun e => h ((ctrlOK_plus hp c).2 ⟨e, hc⟩))]

theorem gate01 (U : Matrix (Fin 2) (Fin 2) (Cx R)) (ht : t0 ≠ t1) {cs' : List Ctrl} (hp : Plus cs cs' t0) :
    gateMat U cs' t1 = sel (ctl01 U) 1 cs t0 t1 := by
  refine gate_t1 ht (fun c hc => ⟨fun h a a' => ?_, fun h a a' => ?_⟩) (ctl01_0 U)
    (fun c hc => ⟨fun h => absurd ((ctrlOK_plus hp c).1 h).2 hc, fun _ a a' => one_r a a' _⟩) one_r0
  · rw [ctl01_at, if_pos ((ctrlOK_plus hp c).1 h).1]
  · rw [ctl01_at, if_neg (fun e => h ((ctrlOK_plus hp c).2 ⟨e, hc⟩))]

theorem gate01f (U : Matrix (Fin 2) (Fin 2) (Cx R)) (ht : t0 ≠ t1) :
    gateMat U [Pkg.posCtrl t0] t1 = sel (ctl01 U) (ctl01 U) cs t0 t1 := by
  have hp : Plus [] [Pkg.posCtrl t0] t0 := by intro q; simp
  have key : ∀ c, (CtrlOK [Pkg.posCtrl t0] c → ∀ a a', ctl01 U (pair (c t0) a) (pair (c t0) a') = U a a') ∧
      (¬ CtrlOK [Pkg.posCtrl t0] c → ∀ a a', ctl01 U (pair (c t0) a) (pair (c t0) a') = if a = a' then 1 else 0) := by
    intro c
    refine ⟨fun h a a' => ?_, fun h a a' => ?_⟩
    · rw [ctl01_at, if_pos ((ctrlOK_plus hp c).1 h).1]
    · rw [ctl01_at, if_neg (fun e => h ((ctrlOK_plus hp c).2 ⟨e, ctrlOK_nil c⟩))]
  exact gate_t1 ht (fun c _ => key c) (ctl01_0 U) (fun c _ => key c) (ctl01_0 U)

theorem tens_mul (A B C D : Matrix (Fin 2) (Fin 2) (Cx R)) : tens A B * tens C D = tens (A * C) (B * D) := by
  ext1 a b
  fin_cases a <;> fin_cases b <;> simp [tens, Matrix.mul_apply, Fin.sum_univ_four, Fin.sum_univ_two] <;> ring

theorem tens_one : tens (1 : Matrix (Fin 2) (Fin 2) (Cx R)) 1 = 1 := by
  ext1 a b
  fin_cases a <;> fin_cases b <;> simp [tens, Matrix.one_apply]

end

/-! ### Sets of controls -/

theorem mem_ctrlInsert {x q : Ctrl} {cs : List Ctrl} : q ∈ ctrlInsert x cs ↔ q = x ∨ q ∈ cs := by
  induction cs with
  | nil => simp [ctrlInsert]
  | cons c cs ih =>
    unfold ctrlInsert
    split_ifs with h1 h2
    · simp
    · simp [ih]; tauto
    · have : c = x := by
        obtain ⟨cq, cn⟩ := c; obtain ⟨xq, xn⟩ := x
        simp [Ctrl.lt] at h1 h2
        have : cq = xq := by omega
        subst this
        simp at h1 h2 ⊢
        cases cn <;> cases xn <;> simp_all
      subst this; simp

theorem mem_ctrlErase {x q : Ctrl} {cs : List Ctrl} : q ∈ ctrlErase x cs ↔ q ∈ cs ∧ q ≠ x := by
  unfold ctrlErase; simp

theorem sorted_ctrlInsert {x : Ctrl} {cs : List Ctrl} (h : cs.Pairwise (fun a b => a.qubit < b.qubit))
    (hx : ∀ c ∈ cs, c.qubit ≠ x.qubit) : (ctrlInsert x cs).Pairwise (fun a b => a.qubit < b.qubit) := by
  induction cs with
  | nil => simp [ctrlInsert]
  | cons c cs ih =>
    obtain ⟨h1, h2⟩ := List.pairwise_cons.1 h
    have hne := hx c (by simp)
    unfold ctrlInsert
    split_ifs with e1 e2
    · refine List.pairwise_cons.2 ⟨fun b hb => ?_, h⟩
      have : x.qubit < c.qubit := by
        simp [Ctrl.lt] at e1; omega
      rcases List.mem_cons.1 hb with rfl | hb
      · exact this
      · exact this.trans (h1 b hb)
    · refine List.pairwise_cons.2 ⟨fun b hb => ?_, ih h2 (fun c' hc' => hx c' (by simp [hc']))⟩
      have : c.qubit < x.qubit := by
        simp [Ctrl.lt] at e2; omega
      rcases mem_ctrlInsert.1 hb with rfl | hb
      · exact this
      · exact h1 b hb
    · exact h

theorem sorted_ctrlErase {x : Ctrl} {cs : List Ctrl} (h : cs.Pairwise (fun a b => a.qubit < b.qubit)) :
    (ctrlErase x cs).Pairwise (fun a b => a.qubit < b.qubit) := List.Pairwise.filter _ h

theorem ctrlErase_insert {x : Ctrl} {cs : List Ctrl} (hx : ∀ c ∈ cs, c.qubit ≠ x.qubit) :
    ctrlErase x (ctrlInsert x cs) = cs := by
  induction cs with
  | nil => simp [ctrlInsert, ctrlErase]
  | cons c cs ih =>
    have hne := hx c (by simp)
    have hcx : c ≠ x := fun e => hne (by rw [e])
    have hf : ctrlErase x cs = cs := by
      unfold ctrlErase
      refine List.filter_eq_self.2 fun a ha => ?_
      have : a ≠ x := fun e => hx a (by simp [ha]) (by rw [e])
      simpa using this
    have ih' := ih (fun c' hc' => hx c' (by simp [hc']))
    unfold ctrlInsert
    split_ifs with e1 e2
    · unfold ctrlErase at hf ⊢; simp [hcx, hf]
    · unfold ctrlErase at ih' ⊢; simp [hcx, ih']
    · simp [Ctrl.lt] at e1 e2; omega

end DD
