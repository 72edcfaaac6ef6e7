import Verif.Proofs.Ctrl2

/-! # Chains of gates -/

namespace DD

open Gates Real

variable {P : PCfg ℝ} {s s' : Pkg ℝ} {n : Nat}

/-- A construction succeeded, left the diagrams of `s` alone and yields a diagram of the matrix `M`. -/
def Yields (P : PCfg ℝ) (s : Pkg ℝ) (n : Nat) (r : Option (Pkg ℝ × PEdge ℝ)) (M : QMat ℝ n) : Prop :=
  ∃ q, r = some q ∧ PWF P q.1 ∅ ∧ PExt s q.1 ∧ Built P s q.1 ∧ Valid (q.1.ut .m) n q.2 ∧ mat (q.1.ut .m) n q.2 = M

theorem mat2_rc (U : GateMatrix) : (fun a b => U (rc a b)) = mat2 U := by
  funext a b
  rcases fin2_cases a with rfl | rfl <;> rcases fin2_cases b with rfl | rfl <;> rfl

theorem yields_gate (hC : 0 < P.C.growth) (h : PWF P s ∅) (hn : n ≤ (s.ut .m).nvars) (U : GateMatrix) {cs : List Ctrl} {t : Fin n}
    (hs : cs.Pairwise (fun a b => a.qubit < b.qubit)) (hct : ∀ c ∈ cs, c.qubit ≠ t)
    (hcn : ∀ c ∈ cs, c.qubit < n) :
    Yields P s n (Pkg.makeGateDD P s U n cs t) (gateMat (mat2 U) cs t) := by
  obtain ⟨r, e1, o⟩ := makeGateDD_spec hC (U := U) hs t.isLt hct h hn
  refine ⟨r, e1, o.wf, o.ext, fun held => .single (.makeGateDD (h := ⟨s, held⟩) U n cs t r t.isLt ⟨hs, hct, hcn⟩ e1), o.valid, ?_⟩
  rw [o.mat_eq, ← mat2_rc]
  funext a b
  exact highVal_gateMat t.isLt hct a b

theorem mul_mat (hC : 0 < P.C.growth) (h : PWF P s ∅) {x y : PEdge ℝ} (hx : Valid (s.ut .m) n x) (hy : Valid (s.ut .m) n y) :
    let r := Pkg.multiply P .m s x y
    PWF P r.1 ∅ ∧ PExt s r.1 ∧ Built P s r.1 ∧ Valid (r.1.ut .m) n r.2 ∧ mat (r.1.ut .m) n r.2 = mat (s.ut .m) n x * mat (s.ut .m) n y := by
  have o := multiply_spec (k := .m) hC h hx hy
  refine ⟨o.wf, o.ext, fun held => .single (.multiply (h := ⟨s, held⟩) .m n x y hx hy), o.valid, ?_⟩
  rw [o.mat_eq]
  funext r c
  rw [Matrix.mul_apply]
  have h1 : ∀ a b : Fin 2, (![0, 0, 1, 1] : Fin 4 → Fin 2) (rc a b) = a := by decide
  have h2 : ∀ a b : Fin 2, (![0, 1, 0, 1] : Fin 4 → Fin 2) (rc a b) = b := by decide
  refine Finset.sum_congr rfl fun j _ => ?_
  simp only [h1, h2]
  rfl

/-- The arguments of a controlled construction. -/
structure TwoCtx (n : Nat) (cs : List Ctrl) (t0 t1 : Fin n) : Prop where
  ne : t0 ≠ t1
  sorted : cs.Pairwise (fun a b => a.qubit < b.qubit)
  avoid : Avoid cs t0 t1
  range : ∀ c ∈ cs, c.qubit < n

/-- State of a construction: the diagram of `A` on the targets if the controls are satisfied, otherwise of `B`. -/
structure St (P : PCfg ℝ) (s : Pkg ℝ) (n : Nat) (cs : List Ctrl) (t0 t1 : Fin n) (A B : Matrix (Fin 4) (Fin 4) (Cx ℝ))
    (q : Pkg ℝ × PEdge ℝ) : Prop where
  ctx : TwoCtx n cs t0 t1
  growth : 0 < P.C.growth
  bound : n ≤ (q.1.ut .m).nvars
  wf : PWF P q.1 ∅
  ext : PExt s q.1
  built : Built P s q.1
  valid : Valid (q.1.ut .m) n q.2
  val : mat (q.1.ut .m) n q.2 = sel A B cs t0 t1

/-- A construction succeeds with such a state. -/
def Yd (P : PCfg ℝ) (s : Pkg ℝ) (n : Nat) (cs : List Ctrl) (t0 t1 : Fin n) (A B : Matrix (Fin 4) (Fin 4) (Cx ℝ))
    (r : Option (Pkg ℝ × PEdge ℝ)) : Prop := ∃ q, r = some q ∧ St P s n cs t0 t1 A B q

variable {cs cs' : List Ctrl} {t0 t1 : Fin n} {A B A' B' : Matrix (Fin 4) (Fin 4) (Cx ℝ)}

theorem Yd.congr {r : Option (Pkg ℝ × PEdge ℝ)} (h : Yd P s n cs t0 t1 A B r) (hA : A = A') (hB : B = B') :
    Yd P s n cs t0 t1 A' B' r := by subst hA; subst hB; exact h

theorem Yd.step {r : Option (Pkg ℝ × PEdge ℝ)} {k : Pkg ℝ × PEdge ℝ → Option (Pkg ℝ × PEdge ℝ)} (h : Yd P s n cs t0 t1 A B r)
    (hk : ∀ q, St P s n cs t0 t1 A B q → Yd P s n cs t0 t1 A' B' (k q)) : Yd P s n cs t0 t1 A' B' (r.bind k) := by
  obtain ⟨q, rfl, hq⟩ := h
  exact hk q hq

theorem Yd.gate (hx : TwoCtx n cs t0 t1) (hC : 0 < P.C.growth) (h : PWF P s ∅) (hn : n ≤ (s.ut .m).nvars) {U : GateMatrix} {t : Fin n}
    (hs : cs'.Pairwise (fun a b => a.qubit < b.qubit)) (hct : ∀ c ∈ cs', c.qubit ≠ t) (hcn : ∀ c ∈ cs', c.qubit < n)
    (he : gateMat (mat2 U) cs' t = sel A B cs t0 t1) : Yd P s n cs t0 t1 A B (Pkg.makeGateDD P s U n cs' t) := by
  obtain ⟨q, e, h1, h2, h2', h3, h4⟩ := yields_gate hC h hn U hs hct hcn
  exact ⟨q, e, hx, hC, by rw [(h2 .m).nvars]; exact hn, h1, h2, h2', h3, h4.trans he⟩

/-- Product of the result so far and the result of another construction. -/
theorem St.mul {q : Pkg ℝ × PEdge ℝ} (h : St P s n cs t0 t1 A B q) {g : Option (Pkg ℝ × PEdge ℝ)}
    (hg : Yd P q.1 n cs t0 t1 A' B' g) :
    Yd P s n cs t0 t1 (A * A') (B * B') (g.map fun g => Pkg.multiply P .m g.1 q.2 g.2) := by
  obtain ⟨r, rfl, hr⟩ := hg
  have u := hr.ext.unchanged h.wf .m n q.2 h.valid
  obtain ⟨o1, o2, o2', o3, o4⟩ := mul_mat h.growth hr.wf u.1 hr.valid
  refine ⟨_, rfl, h.ctx, h.growth, ?_, o1, h.ext.trans (hr.ext.trans o2), h.built.trans (hr.built.trans o2'), o3, ?_⟩
  · rw [(o2 .m).nvars]; exact hr.bound
  · rw [o4, (hr.ext.unchanged h.wf).mat h.valid, hr.val, h.val, sel_mul h.ctx.ne h.ctx.avoid]

/-- Product of the result of another construction and the result so far. -/
theorem St.mul' {q : Pkg ℝ × PEdge ℝ} (h : St P s n cs t0 t1 A B q) {g : Option (Pkg ℝ × PEdge ℝ)}
    (hg : Yd P q.1 n cs t0 t1 A' B' g) :
    Yd P s n cs t0 t1 (A' * A) (B' * B) (g.map fun g => Pkg.multiply P .m g.1 g.2 q.2) := by
  obtain ⟨r, rfl, hr⟩ := hg
  have u := hr.ext.unchanged h.wf .m n q.2 h.valid
  obtain ⟨o1, o2, o2', o3, o4⟩ := mul_mat h.growth hr.wf hr.valid u.1
  refine ⟨_, rfl, h.ctx, h.growth, ?_, o1, h.ext.trans (hr.ext.trans o2), h.built.trans (hr.built.trans o2'), o3, ?_⟩
  · rw [(o2 .m).nvars]; exact hr.bound
  · rw [o4, (hr.ext.unchanged h.wf).mat h.valid, hr.val, h.val, sel_mul h.ctx.ne h.ctx.avoid]

/-- A gate and how it acts on the targets. -/
structure Gate (n : Nat) (cs : List Ctrl) (t0 t1 : Fin n) (U : GateMatrix) (cs' : List Ctrl) (t : Fin n)
    (A B : Matrix (Fin 4) (Fin 4) (Cx ℝ)) : Prop where
  sorted : cs'.Pairwise (fun a b => a.qubit < b.qubit)
  target : ∀ c ∈ cs', c.qubit ≠ t
  range : ∀ c ∈ cs', c.qubit < n
  val : gateMat (mat2 U) cs' t = sel A B cs t0 t1

theorem Gate.first {U : GateMatrix} {t : Fin n} (h : Gate n cs t0 t1 U cs' t A B) (hx : TwoCtx n cs t0 t1) (hC : 0 < P.C.growth)
    (hw : PWF P s ∅) (hn : n ≤ (s.ut .m).nvars) : Yd P s n cs t0 t1 A B (Pkg.makeGateDD P s U n cs' t) :=
  Yd.gate hx hC hw hn h.sorted h.target h.range h.val

theorem St.mulGate {q : Pkg ℝ × PEdge ℝ} (h : St P s n cs t0 t1 A B q) {U : GateMatrix} {t : Fin n}
    (hg : Gate n cs t0 t1 U cs' t A' B') : Yd P s n cs t0 t1 (A * A') (B * B') (Pkg.mulGate P U n cs' t q) :=
  h.mul (hg.first h.ctx h.growth h.wf h.bound)

theorem St.gateMul {q : Pkg ℝ × PEdge ℝ} (h : St P s n cs t0 t1 A B q) {U : GateMatrix} {t : Fin n}
    (hg : Gate n cs t0 t1 U cs' t A' B') : Yd P s n cs t0 t1 (A' * A) (B' * B) (Pkg.gateMul P U n cs' t q) :=
  h.mul' (hg.first h.ctx h.growth h.wf h.bound)

section gates
variable (hx : TwoCtx n cs t0 t1) (U : GateMatrix)
include hx

theorem TwoCtx.g0 : Gate n cs t0 t1 U cs t0 (tens (mat2 U) 1) 1 := ⟨hx.sorted, fun c hc => (hx.avoid c hc).1, hx.range, gate0 _ hx.ne⟩
theorem TwoCtx.g1 : Gate n cs t0 t1 U cs t1 (tens 1 (mat2 U)) 1 := ⟨hx.sorted, fun c hc => (hx.avoid c hc).2, hx.range, gate1 _ hx.ne⟩
theorem TwoCtx.f0 : Gate n cs t0 t1 U [] t0 (tens (mat2 U) 1) (tens (mat2 U) 1) := ⟨by simp, by simp, by simp, gate0f _ hx.ne⟩
theorem TwoCtx.f1 : Gate n cs t0 t1 U [] t1 (tens 1 (mat2 U)) (tens 1 (mat2 U)) := ⟨by simp, by simp, by simp, gate1f _ hx.ne⟩
theorem TwoCtx.c01 : Gate n cs t0 t1 U (ctrlInsert (Pkg.posCtrl t0) cs) t1 (ctl01 (mat2 U)) 1 := by
  refine ⟨sorted_ctrlInsert hx.sorted fun c hc => (hx.avoid c hc).1, fun c hc => ?_, fun c hc => ?_, gate01 _ hx.ne fun q => mem_ctrlInsert⟩
  · rcases mem_ctrlInsert.1 hc with rfl | hc
    · exact fun e => hx.ne (Fin.ext e)
    · exact (hx.avoid c hc).2
  · rcases mem_ctrlInsert.1 hc with rfl | hc
    · exact t0.isLt
    · exact hx.range c hc
theorem TwoCtx.c10 : Gate n cs t0 t1 U (ctrlInsert (Pkg.posCtrl t1) cs) t0 (ctl10 (mat2 U)) 1 := by
  refine ⟨sorted_ctrlInsert hx.sorted fun c hc => (hx.avoid c hc).2, fun c hc => ?_, fun c hc => ?_, gate10 _ hx.ne fun q => mem_ctrlInsert⟩
  · rcases mem_ctrlInsert.1 hc with rfl | hc
    · exact fun e => hx.ne (Fin.ext e.symm)
    · exact (hx.avoid c hc).1
  · rcases mem_ctrlInsert.1 hc with rfl | hc
    · exact t1.isLt
    · exact hx.range c hc
theorem TwoCtx.c01f : Gate n cs t0 t1 U [Pkg.posCtrl t0] t1 (ctl01 (mat2 U)) (ctl01 (mat2 U)) :=
  ⟨by simp, fun c hc => by rw [List.mem_singleton.1 hc]; exact fun e => hx.ne (Fin.ext e),
    fun c hc => by rw [List.mem_singleton.1 hc]; exact t0.isLt, gate01f _ hx.ne⟩
omit U in
theorem TwoCtx.er0 : ctrlErase (Pkg.posCtrl t0) (ctrlInsert (Pkg.posCtrl t0) cs) = cs :=
  ctrlErase_insert fun c hc => (hx.avoid c hc).1
omit U in
theorem TwoCtx.er1 : ctrlErase (Pkg.posCtrl t1) (ctrlInsert (Pkg.posCtrl t1) cs) = cs :=
  ctrlErase_insert fun c hc => (hx.avoid c hc).2

end gates

theorem St.self {q : Pkg ℝ × PEdge ℝ} (h : St P s n cs t0 t1 A B q) : St P q.1 n cs t0 t1 A B q :=
  ⟨h.ctx, h.growth, h.bound, h.wf, .refl _, .refl _ _, h.valid, h.val⟩

/-! ### The 4x4 matrices -/

section alg
variable {K : Type} [CommRing K]

/-- Tensor product. -/
def tn (A B : Matrix (Fin 2) (Fin 2) K) : Matrix (Fin 4) (Fin 4) K :=
  !![A 0 0 * B 0 0, A 0 0 * B 0 1, A 0 1 * B 0 0, A 0 1 * B 0 1;
     A 0 0 * B 1 0, A 0 0 * B 1 1, A 0 1 * B 1 0, A 0 1 * B 1 1;
     A 1 0 * B 0 0, A 1 0 * B 0 1, A 1 1 * B 0 0, A 1 1 * B 0 1;
     A 1 0 * B 1 0, A 1 0 * B 1 1, A 1 1 * B 1 0, A 1 1 * B 1 1]

def cx01 : Matrix (Fin 4) (Fin 4) K := !![1, 0, 0, 0; 0, 1, 0, 0; 0, 0, 0, 1; 0, 0, 1, 0]
def cx10 : Matrix (Fin 4) (Fin 4) K := !![1, 0, 0, 0; 0, 0, 0, 1; 0, 0, 1, 0; 0, 1, 0, 0]
def id2 : Matrix (Fin 2) (Fin 2) K := !![1, 0; 0, 1]
def dia2 (a b : K) : Matrix (Fin 2) (Fin 2) K := !![a, 0; 0, b]
def had (h : K) : Matrix (Fin 2) (Fin 2) K := !![h, h; h, -h]

macro "ent" : tactic => `(tactic| (
  ext a b; fin_cases a <;> fin_cases b <;>
  simp [tn, cx01, cx10, id2, dia2, had, Matrix.mul_apply, Fin.sum_univ_four]))

theorem a_swap : (cx01 : Matrix (Fin 4) (Fin 4) K) * (cx10 * cx01) = !![1, 0, 0, 0; 0, 0, 1, 0; 0, 1, 0, 0; 0, 0, 0, 1] := by
  ent

theorem a_dcx : (cx01 : Matrix (Fin 4) (Fin 4) K) * cx10 = !![1, 0, 0, 0; 0, 0, 0, 1; 0, 1, 0, 0; 0, 0, 1, 0] := by
  ent

theorem a_cx2 : (cx01 : Matrix (Fin 4) (Fin 4) K) * cx01 = 1 := by
  ent

theorem a_iswap (h I : K) (hh : 2 * (h * h) = 1) (hI : I * I = -1) :
    tn id2 (dia2 1 I) * tn (dia2 1 I) id2 * tn (had h) id2 * cx01 * cx10 * tn id2 (had h) =
      !![1, 0, 0, 0; 0, 0, I, 0; 0, I, 0, 0; 0, 0, 0, 1] := by
  ent
  all_goals grind

theorem a_iswapinv (h I : K) (hh : 2 * (h * h) = 1) (hI : I * I = -1) :
    tn id2 (had h) * cx10 * cx01 * tn (had h) id2 * tn (dia2 1 (-I)) id2 * tn id2 (dia2 1 (-I)) =
      !![1, 0, 0, 0; 0, 0, -I, 0; 0, -I, 0, 0; 0, 0, 0, 1] := by
  ent
  all_goals grind

/-- Diagonal matrix. -/
def dia4 (a b c d : K) : Matrix (Fin 4) (Fin 4) K := !![a, 0, 0, 0; 0, b, 0, 0; 0, 0, c, 0; 0, 0, 0, d]

theorem a_rzz (x y : K) : cx01 * tn id2 (dia2 x y) * cx01 = dia4 x y y x := by
  unfold dia4; ent

theorem a_rxx (h I c s : K) (hh : 2 * (h * h) = 1) (hI : I * I = -1) :
    tn (had h) id2 * tn id2 (had h) * dia4 (c - I * s) (c + I * s) (c + I * s) (c - I * s) * tn id2 (had h) * tn (had h) id2 =
      !![c, 0, 0, -I * s; 0, c, -I * s, 0; 0, -I * s, c, 0; -I * s, 0, 0, c] := by
  unfold dia4; ent
  all_goals grind

theorem a_had (h : K) (hh : 2 * (h * h) = 1) : tn (had h) id2 * tn id2 (had h) * 1 * tn id2 (had h) * tn (had h) id2 = 1 := by
  ent
  all_goals grind

theorem a_rzx (h I c s : K) (hh : 2 * (h * h) = 1) (hI : I * I = -1) :
    tn id2 (had h) * dia4 (c - I * s) (c + I * s) (c + I * s) (c - I * s) * tn id2 (had h) =
      !![c, -I * s, 0, 0; -I * s, c, 0, 0; 0, 0, c, I * s; 0, 0, I * s, c] := by
  unfold dia4; ent
  all_goals grind

theorem a_had1 (h : K) (hh : 2 * (h * h) = 1) : tn id2 (had h) * 1 * tn id2 (had h) = 1 := by
  ent
  all_goals grind

/-- Rotation by a quarter about the X axis. -/
def qx (h I : K) : Matrix (Fin 2) (Fin 2) K := !![h, -I * h; -I * h, h]

theorem a_ryy (h I c s : K) (hh : 2 * (h * h) = 1) (hI : I * I = -1) :
    tn (qx h I) id2 * tn id2 (qx h I) * dia4 (c - I * s) (c + I * s) (c + I * s) (c - I * s) * tn id2 (qx h (-I)) * tn (qx h (-I)) id2 =
      !![c, 0, 0, I * s; 0, c, -I * s, 0; 0, -I * s, c, 0; I * s, 0, 0, c] := by
  unfold dia4 qx; ent
  all_goals grind

theorem a_qx (h I : K) (hh : 2 * (h * h) = 1) (hI : I * I = -1) :
    tn (qx h I) id2 * tn id2 (qx h I) * 1 * tn id2 (qx h (-I)) * tn (qx h (-I)) id2 = 1 := by
  unfold qx; ent
  all_goals grind

theorem a_ecr (h I c s : K) (hI : I * I = -1) (h1 : c * c + s * s = 1) (h2 : c * c - s * s = h) (h3 : 2 * (s * c) = h) :
    !![c, I * s, 0, 0; I * s, c, 0, 0; 0, 0, c, -I * s; 0, 0, -I * s, c] * tn !![0, 1; 1, 0] id2 *
      !![c, -I * s, 0, 0; -I * s, c, 0, 0; 0, 0, c, I * s; 0, 0, I * s, c] =
    !![0, 0, h, I * h; 0, 0, I * h, h; h, -I * h, 0, 0; -I * h, h, 0, 0] := by
  ent
  all_goals grind

/-- The half of `1 + i` and the rotations used by XX-YY and XX+YY; `k` is one half. -/
def sx (k I : K) : Matrix (Fin 2) (Fin 2) K := !![k * (1 + I), k * (1 - I); k * (1 - I), k * (1 + I)]
def ry (c s : K) : Matrix (Fin 2) (Fin 2) K := !![c, -s; s, c]

theorem a_w0 (h I k : K) (hk : 2 * k = 1) (hh : 2 * (h * h) = 1) (hI : I * I = -1) :
    dia2 (h + I * h) (h - I * h) * sx k I * dia2 (h - I * h) (h + I * h) =
      !![k * (1 + I), k * (1 + I); -k * (1 + I), k * (1 + I)] := by
  unfold dia2 sx
  ext a b; fin_cases a <;> fin_cases b <;> simp [Matrix.mul_apply, Fin.sum_univ_two]
  all_goals grind

theorem a_w1 (h I k : K) (hk : 2 * k = 1) (hh : 2 * (h * h) = 1) (hI : I * I = -1) :
    dia2 (h + I * h) (h - I * h) * sx k (-I) * dia2 (h - I * h) (h + I * h) =
      !![k * (1 - I), -k * (1 - I); k * (1 - I), k * (1 - I)] := by
  unfold dia2 sx
  ext a b; fin_cases a <;> fin_cases b <;> simp [Matrix.mul_apply, Fin.sum_univ_two]
  all_goals grind

theorem tn_mul (A B C D : Matrix (Fin 2) (Fin 2) K) : tn A B * tn C D = tn (A * C) (B * D) := by
  ext a b; fin_cases a <;> fin_cases b <;> simp [tn, Matrix.mul_apply, Fin.sum_univ_four, Fin.sum_univ_two] <;> ring

theorem dia2_mul (a b c d : K) : dia2 a b * dia2 c d = dia2 (a * c) (b * d) := by
  unfold dia2
  ext a b; fin_cases a <;> fin_cases b <;> simp [Matrix.mul_apply, Fin.sum_univ_two]

theorem id2_eq : (id2 : Matrix (Fin 2) (Fin 2) K) = 1 := by
  unfold id2; rw [Matrix.one_fin_two]

/-- The middle of XX-YY. -/
theorem a_mid_m (c s : K) : cx01 * tn (ry c (-s)) (ry c s) * cx01 =
    !![c * c, -(s * c), -(s * s), s * c; s * c, c * c, s * c, s * s; -(s * s), -(s*c), c * c, s*c; -(s*c), s*s, -(s*c), c*c] := by
  unfold ry; ent
  all_goals grind

/-- The middle of XX+YY. -/
theorem a_mid_p (c s : K) : cx01 * tn (ry c s) (ry c s) * cx01 =
    !![c * c, -(s * c), s * s, -(s * c); s * c, c * c, -(s * c), -(s * s); s * s, s * c, c * c, s * c;
       s * c, -(s * s), -(s * c), c * c] := by
  unfold ry; ent
  all_goals grind

theorem a_xxm (I k c s b b' : K) (hk : 2 * k = 1) (hI : I * I = -1) (h1 : c * c + s * s = 1) (h2 : b * b + b' * b' = 1) :
    tn !![k * (1 + I), k * (1 + I); -k * (1 + I), k * (1 + I)] (dia2 (b + I * b') ((b - I * b') * I)) *
      !![c * c, -(s * c), -(s * s), s * c; s * c, c * c, s * c, s * s; -(s * s), -(s*c), c * c, s*c; -(s*c), s*s, -(s*c), c*c] *
      tn !![k * (1 - I), -k * (1 - I); k * (1 - I), k * (1 - I)] (dia2 (b - I * b') (-I * (b + I * b'))) =
    !![c * c - s * s, 0, 0, -I * ((b * b - b' * b') + I * (2 * (b' * b))) * (2 * (s * c));
       0, 1, 0, 0; 0, 0, 1, 0;
       -I * ((b * b - b' * b') - I * (2 * (b' * b))) * (2 * (s * c)), 0, 0, c * c - s * s] := by
  ent
  all_goals grind

theorem a_xxp (I k c s b b' : K) (hk : 2 * k = 1) (hI : I * I = -1) (h1 : c * c + s * s = 1) (h2 : b * b + b' * b' = 1) :
    tn !![k * (1 + I), k * (1 + I); -k * (1 + I), k * (1 + I)] (dia2 (b - I * b') ((b + I * b') * I)) *
      !![c * c, -(s * c), s * s, -(s * c); s * c, c * c, -(s * c), -(s * s); s * s, s * c, c * c, s * c;
       s * c, -(s * s), -(s * c), c * c] *
      tn !![k * (1 - I), -k * (1 - I); k * (1 - I), k * (1 - I)] (dia2 (b + I * b') (-I * (b - I * b'))) =
    !![1, 0, 0, 0;
       0, c * c - s * s, -I * ((b * b - b' * b') + I * (2 * (b' * b))) * (2 * (s * c)), 0;
       0, -I * ((b * b - b' * b') - I * (2 * (b' * b))) * (2 * (s * c)), c * c - s * s, 0;
       0, 0, 0, 1] := by
  ent
  all_goals grind

theorem a_xx1 (I k x y x' y' : K) (hk : 2 * k = 1) (hI : I * I = -1) (h1 : x * x' = 1) (h2 : y * y' = 1) :
    tn !![k * (1 + I), k * (1 + I); -k * (1 + I), k * (1 + I)] (dia2 x y) *
      tn !![k * (1 - I), -k * (1 - I); k * (1 - I), k * (1 - I)] (dia2 x' y') = 1 := by
  ent
  all_goals grind

end alg

end DD
