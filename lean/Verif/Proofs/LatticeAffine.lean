import Verif.Proofs.LatticeOps

/-! # Affine lattices -/

namespace Verif.Rings

section
variable {α R : Type}

theorem Mat.Denotes.set {v : α → R} {m : Mat α} {r c : Nat} {E : Matrix (Fin r) (Fin c) R} (h : m.Denotes v E) (i : Fin r) (j : Fin c)
    (x : α) : ∃ m', m.set i j x = some m' ∧ m'.Denotes v (Matrix.of fun a b => if a = i ∧ b = j then v x else E a b) := by
  obtain ⟨f, hf, hv⟩ := (Mat.denotes_iff x).1 h
  obtain ⟨m', e, hm'⟩ := hf.set i.2 j.2 x
  refine ⟨m', e, hm'.denotes' ?_⟩
  intro a b
  rw [apply_ite v, hv]
  simp [Fin.ext_iff]

theorem Mat.Denotes.setFold {v : α → R} {r c : Nat} (T : Matrix (Fin r) (Fin c) R) (ri ci : Nat → Nat) {step : Mat α → Nat → Option (Mat α)}
    (K : Nat) (hstep : ∀ (m : Mat α) (E : Matrix (Fin r) (Fin c) R) (i : Nat), i < K → m.Denotes v E → ∃ m', step m i = some m' ∧
      m'.Denotes v (Matrix.of fun (a : Fin r) (b : Fin c) => @ite R ((a : Nat) = ri i ∧ (b : Nat) = ci i) (Classical.propDecidable _) (T a b) (E a b)))
    {m : Mat α} {E : Matrix (Fin r) (Fin c) R} (h : m.Denotes v E) : ∃ m', (List.range K).foldlM step m = some m' ∧
      m'.Denotes v (Matrix.of fun (a : Fin r) (b : Fin c) => @ite R (∃ i, i < K ∧ (a : Nat) = ri i ∧ (b : Nat) = ci i) (Classical.propDecidable _) (T a b) (E a b)) := by
  classical
  induction K with
  | zero => exact ⟨m, rfl, h.congr rfl rfl (by intro a b; simp)⟩
  | succ K ih =>
    obtain ⟨m1, e1, h1⟩ := ih fun m E i hi => hstep m E i (by omega)
    obtain ⟨m2, e2, h2⟩ := hstep m1 _ K (by omega) h1
    refine ⟨m2, ?_, ?_⟩
    · rw [List.range_succ, List.foldlM_append, e1]
      change (List.foldlM step m1 [K] : Option (Mat α)) = _
      rw [List.foldlM_cons, e2]
      rfl
    · refine h2.congr rfl rfl ?_
      intro a b
      simp only [Matrix.of_apply, Fin.cast_eq_self]
      by_cases hK : (a : Nat) = ri K ∧ (b : Nat) = ci K
      · rw [if_pos hK, if_pos ⟨K, by omega, hK⟩]
      · rw [if_neg hK]
        congr 1
        apply propext
        constructor
        · rintro ⟨i, hi, hab⟩
          refine ⟨i, ?_, hab⟩
          rcases Nat.lt_succ_iff_lt_or_eq.1 hi with hi | rfl
          · exact hi
          · exact absurd hab hK
        · rintro ⟨i, hi, hab⟩
          exact ⟨i, by omega, hab⟩

end

section
variable {α R : Type} [CommRing R] {S : BezoutOps α} {v : α → R}

theorem LinLat.Denotes.ok (h : S.Models v) {lat : LinLat α} {r c : Nat} {N : Submodule R (Matrix (Fin r) (Fin c) R)} (hl : lat.Denotes v N) :
    S.latOk lat = some true := by
  obtain ⟨hr, hc, k, B, hB, hi, -⟩ := LinLat.denotes_iff.1 hl
  obtain ⟨b, e, hb⟩ := h.latOk hB (by rw [hr, hc])
  rw [e, hb.2 hi]

theorem AffLat.nonEmpty_denotes {r c : Nat} {offset : Mat α} {lin : LinLat α} {X : Matrix (Fin r) (Fin c) R}
    {N : Submodule R (Matrix (Fin r) (Fin c) R)} (ho : offset.Denotes v X) (hl : lin.Denotes v N) :
    AffLat.Denotes v ⟨r, c, .nonEmpty offset lin⟩ {Y | Y - X ∈ N} := ⟨rfl, rfl, X, N, ho, hl, rfl⟩

theorem AffLat.empty_denotes {r c : Nat} : AffLat.Denotes v (AffLat.mkEmpty r c : AffLat α) (∅ : Set (Matrix (Fin r) (Fin c) R)) := ⟨rfl, rfl, rfl⟩

variable (h : S.Models v)
include h

theorem BezoutOps.Models.affFrom {r c : Nat} {offset : Mat α} {lin : LinLat α} {X : Matrix (Fin r) (Fin c) R}
    {N : Submodule R (Matrix (Fin r) (Fin c) R)} (ho : offset.Denotes v X) (hl : lin.Denotes v N) :
    S.affFrom r c offset lin = some ⟨r, c, .nonEmpty offset lin⟩ := by
  obtain ⟨hr, hc, -⟩ := LinLat.denotes_iff.1 hl
  unfold BezoutOps.affFrom BezoutOps.affOk
  simp [ho.rows, ho.cols, hr, hc, hl.ok h, assertThat]

theorem BezoutOps.Models.affContains {lat : AffLat α} {r c : Nat} {P : Set (Matrix (Fin r) (Fin c) R)} (hl : lat.Denotes v P)
    {m : Mat α} {A : Matrix (Fin r) (Fin c) R} (hm : m.Denotes v A) : ∃ b, S.affContains lat m = some b ∧ (b = true ↔ A ∈ P) := by
  have hD := h.toGcd.toFav.toDomain
  obtain ⟨lr, lc, elems⟩ := lat
  obtain ⟨-, -, he⟩ := hl
  unfold BezoutOps.affContains
  cases elems with
  | empty =>
    have hP : P = ∅ := he
    exact ⟨false, rfl, by simp [hP]⟩
  | nonEmpty o l =>
    obtain ⟨X, N, ho, hN, rfl⟩ := he
    obtain ⟨n, en, hn⟩ := hD.toRing.matNeg ho
    obtain ⟨d, ed, hd⟩ := hD.toRing.toSemi.matAdd hn hm
    obtain ⟨b, eb, hb⟩ := h.latContains hN hd
    refine ⟨b, ?_, ?_⟩
    · simp only [en, ed, Option.bind_eq_bind, Option.bind_some, unwrapMat]
      exact eb
    · rw [hb, Set.mem_setOf_eq, neg_add_eq_sub]

theorem BezoutOps.Models.affContainsSub {lat : AffLat α} {r c : Nat} {P : Set (Matrix (Fin r) (Fin c) R)} (hl : lat.Denotes v P)
    {o : Mat α} {l : LinLat α} {X : Matrix (Fin r) (Fin c) R} {k : Nat} {B : Fin k → Matrix (Fin r) (Fin c) R} (ho : o.Denotes v X)
    (hB : l.HasBasis v B) (hne : P.Nonempty) (r' c' : Nat) :
    ∃ b, S.affContainsSub lat ⟨r', c', .nonEmpty o l⟩ = some b ∧ (b = true ↔ ∀ n, B n + X ∈ P) := by
  have hS := h.toGcd.toFav.toDomain.toRing.toSemi
  unfold BezoutOps.affContainsSub BezoutOps.affContainsSubNonEmpty
  have hl' := hl
  obtain ⟨lr, lc, elems⟩ := lat
  obtain ⟨-, -, he⟩ := hl
  cases elems with
  | empty =>
    have hP : P = ∅ := he
    rw [hP] at hne
    exact absurd hne (by simp)
  | nonEmpty o1 l1 =>
    dsimp only
    rw [hB.rank]
    obtain ⟨x, ex, hx⟩ := allM_some (List.range k) (p := fun n => S.affContainsBasis ⟨lr, lc, .nonEmpty o1 l1⟩ o l n)
      (P := fun n => ∀ hn : n < k, B ⟨n, hn⟩ + X ∈ P) (by
      intro n hn
      have hn' : n < k := by simpa using hn
      obtain ⟨b, eb, hb⟩ := hB.basisMatrix ⟨n, hn'⟩
      obtain ⟨s, es, hs⟩ := hS.matAdd hb ho
      obtain ⟨y, ey, hy⟩ := h.affContains hl' hs
      refine ⟨y, ?_, ?_⟩
      · unfold BezoutOps.affContainsBasis
        have eb' : l.basisMatrix n = some b := eb
        simp only [eb', es, Option.bind_eq_bind, Option.bind_some, unwrapMat]
        exact ey
      · rw [hy]
        exact ⟨fun h _ => h, fun h => h hn'⟩)
    refine ⟨x, ex, ?_⟩
    rw [hx]
    exact ⟨fun h n => h n (by simp) n.2, fun h n _ hn => h ⟨n, hn⟩⟩

theorem BezoutOps.Models.affSumLoop {r c : Nat} {lats : List (AffLat α)} {Ps : List (Set (Matrix (Fin r) (Fin c) R))}
    (hl : List.Forall₂ (fun l P => AffLat.Denotes v l P) lats Ps) {o : Mat α} {X : Matrix (Fin r) (Fin c) R} (ho : o.Denotes v X)
    {lins : List (LinLat α)} {Ns : List (Submodule R (Matrix (Fin r) (Fin c) R))} (hN : List.Forall₂ (fun l N => LinLat.Denotes v l N) lins Ns) :
    (S.affSumLoop r c lats o lins = some none ∧ ∃ P ∈ Ps, P = ∅) ∨
    ∃ o' lins' X' Ns' , S.affSumLoop r c lats o lins = some (some (o', lins')) ∧ o'.Denotes v X' ∧
      List.Forall₂ (fun l N => LinLat.Denotes v l N) lins' Ns' ∧
      ∀ Y, Y - X' ∈ (⨆ N ∈ Ns', N) ↔ ∃ Z ∈ (⨆ N ∈ Ns, N), ∃ Ys, List.Forall₂ (fun y P => y ∈ P) Ys Ps ∧ Y = X + Z + Ys.sum := by
  have hS := h.toGcd.toFav.toDomain.toRing.toSemi
  induction hl generalizing o X lins Ns with
  | nil =>
    right
    refine ⟨o, lins, X, Ns, rfl, ho, hN, ?_⟩
    intro Y
    constructor
    · intro hY
      exact ⟨Y - X, hY, [], .nil, by simp⟩
    · rintro ⟨Z, hZ, Ys, hYs, rfl⟩
      cases hYs
      simpa using hZ
  | @cons lat P lats Ps hlat hrest ih =>
    obtain ⟨lr, lc, elems⟩ := lat
    obtain ⟨h1, h2, he⟩ := hlat
    cases elems with
    | empty =>
      left
      refine ⟨?_, P, by simp, he⟩
      unfold BezoutOps.affSumLoop
      have h1' : lr = r := h1
      have h2' : lc = c := h2
      simp [h1', h2', assertThat]
    | nonEmpty o1 l1 =>
      obtain ⟨X1, N1, ho1, hN1, rfl⟩ := he
      obtain ⟨s, es, hs⟩ := hS.matAdd ho ho1
      have hstep : S.affSumLoop r c (⟨lr, lc, .nonEmpty o1 l1⟩ :: lats) o lins = S.affSumLoop r c lats s (lins ++ [l1]) := by
        conv_lhs => unfold BezoutOps.affSumLoop
        have h1' : lr = r := h1
        have h2' : lc = c := h2
        simp [h1', h2', assertThat, es, unwrapMat]
      rw [hstep]
      have hN' : List.Forall₂ (fun l N => LinLat.Denotes v l N) (lins ++ [l1]) (Ns ++ [N1]) := List.rel_append hN (.cons hN1 .nil)
      have hsup : (⨆ N ∈ Ns ++ [N1], N) = (⨆ N ∈ Ns, N) ⊔ N1 := by
        clear hN hN' ih hstep
        induction Ns with
        | nil => simp
        | cons N Ns ih => rw [List.cons_append, iSup_cons, iSup_cons, ih, sup_assoc]
      rcases ih hs hN' with ⟨e, P, hP, hP0⟩ | ⟨o', lins', X', Ns', e, ho', hl', hmem⟩
      · exact .inl ⟨e, P, by simp [hP], hP0⟩
      · refine .inr ⟨o', lins', X', Ns', e, ho', hl', ?_⟩
        intro Y
        rw [hmem, hsup]
        constructor
        · rintro ⟨Z, hZ, Ys, hYs, rfl⟩
          obtain ⟨Z1, hZ1, Z2, hZ2, rfl⟩ := Submodule.mem_sup.1 hZ
          refine ⟨Z1, hZ1, (X1 + Z2) :: Ys, .cons (by simpa using hZ2) hYs, ?_⟩
          rw [List.sum_cons]; abel
        · rintro ⟨Z, hZ, Ys, hYs, rfl⟩
          cases hYs with
          | @cons y _ Ys _ hy hYs =>
            refine ⟨Z + (y - X1), Submodule.mem_sup.2 ⟨Z, hZ, _, hy, rfl⟩, Ys, hYs, ?_⟩
            rw [List.sum_cons]; abel

theorem BezoutOps.Models.affSum {r c : Nat} {lats : List (AffLat α)} {Ps : List (Set (Matrix (Fin r) (Fin c) R))}
    (hl : List.Forall₂ (fun l P => AffLat.Denotes v l P) lats Ps) :
    ∃ lat, S.affSum r c lats = some lat ∧ lat.Denotes v {Y | ∃ Ys, List.Forall₂ (fun y P => y ∈ P) Ys Ps ∧ Y = Ys.sum} := by
  have hS := h.toGcd.toFav.toDomain.toRing.toSemi
  obtain ⟨z, ez, hz⟩ := hS.matZero r c
  unfold BezoutOps.affSum
  rcases h.affSumLoop hl hz .nil with ⟨e, P, hP, rfl⟩ | ⟨o', lins', X', Ns', e, ho', hl', hmem⟩
  · refine ⟨AffLat.mkEmpty r c, by simp [ez, e, BezoutOps.affSumEnd], ?_⟩
    have : {Y : Matrix (Fin r) (Fin c) R | ∃ Ys, List.Forall₂ (fun y P => y ∈ P) Ys Ps ∧ Y = Ys.sum} = ∅ := by
      rw [Set.eq_empty_iff_forall_notMem]
      rintro Y ⟨Ys, hYs, -⟩
      obtain ⟨y, -, hy⟩ := forall₂_mem hYs.flip hP
      exact hy
    rw [this]
    exact AffLat.empty_denotes
  · obtain ⟨lat, el, hlat⟩ := h.latSum hl'
    refine ⟨⟨r, c, .nonEmpty o' lat⟩, by simp [ez, e, BezoutOps.affSumEnd, el], ?_⟩
    convert AffLat.nonEmpty_denotes ho' hlat using 1
    ext Y
    rw [Set.mem_setOf_eq, Set.mem_setOf_eq, hmem]
    constructor
    · rintro ⟨Ys, hYs, rfl⟩
      exact ⟨0, Submodule.zero_mem _, Ys, hYs, by simp⟩
    · rintro ⟨Z, hZ, Ys, hYs, rfl⟩
      have : Z = 0 := by simpa using hZ
      exact ⟨Ys, hYs, by simp [this]⟩

/-- The matrix of the hyperlattice. -/
def hyperRows {R : Type} [CommRing R] {k r c : Nat} (X : Matrix (Fin r) (Fin c) R) (B : Fin k → Matrix (Fin r) (Fin c) R) :
    Matrix (Fin (1 + k)) (Fin (1 + r * c)) R :=
  Matrix.of (Fin.append (fun _ : Fin 1 => Fin.append (fun _ : Fin 1 => (1 : R)) (flatL R r c X))
    (fun n => Fin.append (fun _ : Fin 1 => (0 : R)) (flatL R r c (B n))))

theorem BezoutOps.Models.offsetMeta {r c k : Nat} {o : Mat α} {l : LinLat α} {X : Matrix (Fin r) (Fin c) R}
    {B : Fin k → Matrix (Fin r) (Fin c) R} (ho : o.Denotes v X) (hB : l.HasBasis v B) :
    ∃ m, S.offsetMeta r c o l = some m ∧ m.Denotes v (hyperRows X B) := by
  classical
  have hS := h.toGcd.toFav.toDomain.toRing.toSemi
  obtain ⟨z, ez, hz⟩ := hS.matZero (1 + k) (1 + r * c)
  obtain ⟨m1, e1, h1⟩ := hz.set 0 0 S.one
  have e1' : z.set 0 0 S.one = some m1 := e1
  have hdm : ∀ (A : Matrix (Fin r) (Fin c) R) (i : Nat) (hi : i < r * c), flatL R r c A ⟨i, hi⟩ = A ⟨i / c, div_lt_of_lt_mul' hi⟩ ⟨i % c, mod_lt_of_lt_mul hi⟩ :=
    fun A i hi => rfl
  obtain ⟨m2, e2, h2⟩ := Mat.Denotes.setFold (v := v) (hyperRows X B) (fun _ => 0) (fun i => 1 + i) (step := metaOffsetStep r c o) (r * c) (by
    intro m E i hi hm
    obtain ⟨x, ex, hx⟩ := ho.get ⟨i / c, div_lt_of_lt_mul' hi⟩ ⟨i % c, mod_lt_of_lt_mul hi⟩
    obtain ⟨m', em, hm'⟩ := hm.set 0 (Fin.natAdd 1 ⟨i, hi⟩) x
    refine ⟨m', ?_, hm'.congr rfl rfl ?_⟩
    · unfold metaOffsetStep
      have ex' : o.get (i / c) (i % c) = some x := ex
      simp only [latRc_ok hi, ex', Option.bind_eq_bind, Option.bind_some]
      exact em
    · intro a b
      simp only [Matrix.of_apply, Fin.cast_eq_self, Fin.ext_iff, Fin.val_natAdd]
      by_cases hab : (a : Nat) = 0 ∧ (b : Nat) = 1 + i
      · rw [if_pos hab, if_pos (by exact hab)]
        have ha : a = Fin.castAdd k 0 := Fin.ext hab.1
        have hb : b = Fin.natAdd 1 ⟨i, hi⟩ := Fin.ext hab.2
        rw [ha, hb]
        unfold hyperRows
        rw [Matrix.of_apply, Fin.append_left, Fin.append_right, hx, hdm]
      · rw [if_neg hab, if_neg (by exact hab)]) h1
  have hrest : ∀ q, q ≤ k → ∃ m, (List.range q).foldlM (fun m bn => (List.range (r * c)).foldlM (metaBasisStep r c l bn) m) m2 = some m ∧
      m.Denotes v (Matrix.of fun (a : Fin (1 + k)) (b : Fin (1 + r * c)) => if (a : Nat) < 1 + q then hyperRows X B a b else 0) := by
    intro q
    induction q with
    | zero =>
      intro _
      refine ⟨m2, rfl, h2.congr rfl rfl ?_⟩
      intro a b
      simp only [Matrix.of_apply, Fin.cast_eq_self]
      by_cases ha : (a : Nat) < 1 + 0
      · rw [if_pos ha]
        have ha' : a = Fin.castAdd k 0 := Fin.ext (by simpa using ha)
        refine Fin.addCases (fun b => ?_) (fun b => ?_) b
        · rw [if_neg (by rintro ⟨i, -, -, hb⟩; simp at hb; omega)]
          rw [if_pos ⟨by rw [ha']; rfl, by rw [Fin.fin_one_eq_zero b]; rfl⟩, ha', hS.one]
          unfold hyperRows
          rw [Matrix.of_apply, Fin.append_left, Fin.append_left]
        · rw [if_pos ⟨b, b.2, by rw [ha']; rfl, rfl⟩]
      · rw [if_neg ha, if_neg (by rintro ⟨i, -, ha', -⟩; omega), if_neg (by rintro ⟨rfl, -⟩; exact ha (by simp))]
        rfl
    | succ q ih =>
      intro hq
      obtain ⟨m3, e3, h3⟩ := ih (by omega)
      obtain ⟨m4, e4, h4⟩ := Mat.Denotes.setFold (v := v) (hyperRows X B) (fun _ => 1 + q) (fun i => 1 + i) (step := metaBasisStep r c l q) (r * c) (by
        intro m E i hi hm
        obtain ⟨x, ex, hx⟩ := hB.basisElement ⟨q, hq⟩ ⟨i / c, div_lt_of_lt_mul' hi⟩ ⟨i % c, mod_lt_of_lt_mul hi⟩
        obtain ⟨m', em, hm'⟩ := hm.set (Fin.natAdd 1 ⟨q, hq⟩) (Fin.natAdd 1 ⟨i, hi⟩) x
        refine ⟨m', ?_, hm'.congr rfl rfl ?_⟩
        · unfold metaBasisStep
          have ex' : l.basisElement q (i / c) (i % c) = some x := ex
          simp only [latRc_ok hi, ex', Option.bind_eq_bind, Option.bind_some]
          exact em
        · intro a b
          simp only [Matrix.of_apply, Fin.cast_eq_self, Fin.ext_iff, Fin.val_natAdd]
          by_cases hab : (a : Nat) = 1 + q ∧ (b : Nat) = 1 + i
          · rw [if_pos hab, if_pos (by exact hab)]
            have ha : a = Fin.natAdd 1 ⟨q, hq⟩ := Fin.ext hab.1
            have hb : b = Fin.natAdd 1 ⟨i, hi⟩ := Fin.ext hab.2
            rw [ha, hb]
            unfold hyperRows
            rw [Matrix.of_apply, Fin.append_right, Fin.append_right, hx, hdm]
          · rw [if_neg hab, if_neg (by exact hab)]) h3
      refine ⟨m4, ?_, h4.congr rfl rfl ?_⟩
      · rw [List.range_succ, List.foldlM_append, e3]
        change (List.foldlM (fun m bn => (List.range (r * c)).foldlM (metaBasisStep r c l bn) m) m3 [q] : Option (Mat α)) = _
        rw [List.foldlM_cons, e4]
        rfl
      · intro a b
        simp only [Matrix.of_apply, Fin.cast_eq_self]
        by_cases ha : (a : Nat) = 1 + q
        · rw [if_pos (by omega)]
          have ha' : a = Fin.natAdd 1 ⟨q, hq⟩ := Fin.ext ha
          refine Fin.addCases (fun b => ?_) (fun b => ?_) b
          · rw [if_neg (by rintro ⟨i, -, -, hb⟩; simp at hb; omega), if_neg (by omega), ha']
            unfold hyperRows
            rw [Matrix.of_apply, Fin.append_right, Fin.append_left]
          · rw [if_pos ⟨b, b.2, ha, rfl⟩]
        · have hno : ¬ ∃ i, i < r * c ∧ (a : Nat) = 1 + q ∧ (b : Nat) = 1 + i := fun ⟨i, _, ha', _⟩ => ha ha'
          rw [if_neg hno]
          by_cases hlt : (a : Nat) < 1 + q
          · have hlt' : (a : Nat) < 1 + (q + 1) := by omega
            rw [if_pos hlt, if_pos hlt']
          · have hlt' : ¬ (a : Nat) < 1 + (q + 1) := by omega
            rw [if_neg hlt, if_neg hlt']
  obtain ⟨m, e, hm⟩ := hrest k le_rfl
  refine ⟨m, ?_, hm.congr rfl rfl ?_⟩
  · unfold SemiRingOps.offsetMeta
    rw [hB.rank]
    simp only [ez, e1', e2, Option.bind_eq_bind, Option.bind_some]
    exact e
  · intro a b
    simp [a.2]

end

end Verif.Rings
