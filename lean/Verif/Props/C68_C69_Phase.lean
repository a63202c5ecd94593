import Verif.Props.C64_C67_Phase
import Verif.Props.C01_C04_Pad

/-!
# C68, C69: the pupil and the PSF of a phase retrieval result
-/

namespace PyOTF

open Physics

theorem rollIdx_pixelOf (N i : ℕ) : rollIdx N (-(N / 2 : ℕ)) i = pixelOf N i := by
  unfold rollIdx pixelOf
  rw [sub_neg_eq_add]
  norm_cast

theorem ifftshift2_get {α : Type} (a : Arr α) (N : ℕ) (hs : a.shape = [N, N]) (i j : ℕ) :
    (ifftshift none a).get [i, j] = a.get [pixelOf N i, pixelOf N j] := by
  rw [← rollIdx_pixelOf N i, ← rollIdx_pixelOf N j]
  simp [ifftshift, Arr.alongAxes, Arr.alongAxis, axesOf, ifftshift1, roll1, hs, List.range_succ]

theorem pixelOf_sampleAt {N y : ℕ} (hy : y < N) : pixelOf N (sampleAt N y) = y := by
  unfold sampleAt pixelOf
  have h2 : N / 2 ≤ N := Nat.div_le_self N 2
  by_cases h : y + (N - N / 2) < N
  · rw [Nat.mod_eq_of_lt h]
    have : y + (N - N / 2) + N / 2 = y + N := by omega
    rw [this, Nat.add_mod_right, Nat.mod_eq_of_lt hy]
  · have h1 : (y + (N - N / 2)) % N = y + (N - N / 2) - N := by
      rw [Nat.mod_eq_sub_mod (by omega), Nat.mod_eq_of_lt (by omega)]
    rw [h1]
    have : y + (N - N / 2) - N + N / 2 = y := by omega
    rw [this, Nat.mod_eq_of_lt hy]

/-- The planes asked for by the arguments `zsize`, `zrange` of `generate_psf`: explicit planes, or `zsize` planes with
the spacing `dz` of the model, or those of the model. -/
def Asked (zs : List ℚ) (dz : ℚ) (zsize : Option PyVal) (zrange : Option ZArg) (zs' : List ℚ) : Prop :=
  (zsize = none ∨ ∃ m : ℕ, zsize = some (.int m)) ∧
  match zrange, zsize with
  | some z, _ => z = .seq (zs'.map PyFloat.fin)
  | none, some v => ∃ m : ℕ, v = .int m ∧ zs' = (List.range m).map fun (k : ℕ) => ((k : ℚ) - ((m + 1) / 2 : ℕ)) * dz
  | none, none => zs' = zs

theorem setZsize_form {p : Params} {Z m : ℕ} {u : PyVal} {dz : ℚ} (h1 : p.zsize = some (.int Z)) (h2 : p.zres = some u)
    (h3 : u.num? = some (.fin dz)) (o : HObj) (ho : o.params = p) :
    setAttr .hanser .zsize (.int m) o = (.ok (), { params := { p with zsize := some (.int m), zrange := some (defaultZrange m (.fin dz)) } }) := by
  have e : setAttr .hanser .zsize (.int m) o = setZsizeHanser (.int m) o := rfl
  have hlt : PyFloat.lt (.fin ((m : ℤ) : ℚ)) (.fin 0) = false := by
    simp [PyFloat.lt]
  have hnum : (PyVal.int (m : ℤ)).ltZero = .ok false := by
    simp only [PyVal.ltZero, PyVal.num?]
    exact congrArg Except.ok hlt
  have hn : numericSet PyVal.isInt (some (.int (Z : ℤ))) (.int (m : ℤ)) =
      .ok (if (PyVal.int (Z : ℤ)).ne (.int (m : ℤ)) = true then some (.int (m : ℤ)) else none) := by
    unfold numericSet
    simp only [PyVal.isInt, hnum, bind, Except.bind, Option.getD_some]
    by_cases hq : (PyVal.int (Z : ℤ)).ne (.int (m : ℤ)) = true <;> simp [hq, pure, Except.pure]
  subst ho
  rw [e]
  by_cases hne : (PyVal.int (Z : ℤ)).ne (.int (m : ℤ)) = true
  · rw [if_pos hne] at hn
    simp only [setZsizeHanser, PyM.bind_apply, setZsizeBase, setNumeric_run, h1, hn]
    simp only [PyM.ignore, genZrange_run, h2, pyNum_of_num h3]
    rfl
  · rw [if_neg hne] at hn
    have hZ : (Z : ℤ) = m := by
      simp [PyVal.ne, PyVal.num?, PyFloat.eq] at hne
      exact_mod_cast hne
    simp only [setZsizeHanser, PyM.bind_apply, setZsizeBase, setNumeric_run, h1, hn]
    simp only [PyM.ignore, genZrange_run, h1, h2, pyNum_of_num h3]
    rw [hZ]
    rfl

/-- The statements of `generate_psf` that set the planes of the copy. -/
noncomputable def setPlanes (zsize : Option PyVal) (zrange : Option ZArg) : PyM HObj Unit := do
  match zsize with
  | some v => setAttr .hanser .zsize v
  | none => pure ()
  match zrange with
  | some z => setZrange z
  | none => pure ()

theorem setPlanes_form {p : Params} {w n i r dz : ℚ} {N Z : ℕ} {zs zs' : List ℚ} (ho : Optics p w n i r N zs .none .none)
    (h1 : p.zsize = some (.int Z)) (h2 : ∃ u, p.zres = some u ∧ u.num? = some (.fin dz)) {zsize : Option PyVal}
    {zrange : Option ZArg} (hask : Asked zs dz zsize zrange zs') (o : HObj) (hop : o.params = p) :
    ∃ o', setPlanes zsize zrange o = (.ok (), o') ∧ Optics o'.params w n i r N zs' .none .none := by
  obtain ⟨u, h2, h3⟩ := h2
  obtain ⟨hz, hask⟩ := hask
  have fin : ∀ (o1 : HObj) (zs1 : List ℚ), Optics o1.params w n i r N zs1 .none .none → ∀ z, z = ZArg.seq (zs'.map PyFloat.fin) →
      ∃ o', setZrange z o1 = (.ok (), o') ∧ Optics o'.params w n i r N zs' .none .none := by
    rintro o1 zs1 h z rfl
    exact ⟨_, setZrange_run _ _, { h with zrange := rfl }⟩
  rcases hz with rfl | ⟨m, rfl⟩
  · cases zrange with
    | none =>
      simp only at hask
      subst hask hop
      exact ⟨o, rfl, ho⟩
    | some z =>
      subst hop
      obtain ⟨o', e1, e2⟩ := fin o zs ho z hask
      exact ⟨o', e1, e2⟩
  · have hs := setZsize_form (m := m) h1 h2 h3 o hop
    have hop1 : Optics { p with zsize := some (.int m), zrange := some (defaultZrange m (.fin dz)) } w n i r N
        ((List.range m).map fun (k : ℕ) => ((k : ℚ) - ((m + 1) / 2 : ℕ)) * dz) .none .none :=
      { ho with zrange := by rw [← defaultZrange_rat] }
    cases zrange with
    | none =>
      obtain ⟨m', e1, e2⟩ := hask
      have : (m : ℤ) = m' := by injection e1
      obtain rfl : m = m' := by exact_mod_cast this
      subst e2
      refine ⟨{ params := { p with zsize := some (.int m), zrange := some (defaultZrange m (.fin dz)) } }, ?_, hop1⟩
      simp only [setPlanes, PyM.bind_apply, hs]
      rfl
    | some z =>
      obtain ⟨o', e1, e2⟩ := fin { params := { p with zsize := some (.int m), zrange := some (defaultZrange m (.fin dz)) } } _ hop1 z hask
      refine ⟨o', ?_, e2⟩
      simp only [setPlanes, PyM.bind_apply, hs]
      exact e1

/-- Statements on the copy act on the copy only. -/
theorem onRef_last {α : Type} (heap : Heap) (o : HObj) (m : PyM HObj α) :
    onRef heap.length m (heap ++ [o]) = ((m o).1, heap ++ [(m o).2]) := by
  unfold onRef
  rw [List.getElem?_concat_length]
  simp

theorem generatePsf_form {p : Params} {w n i r dz : ℚ} {N Z : ℕ} {zs zs' : List ℚ} (ho : Optics p w n i r N zs .none .none)
    (hw : w ≠ 0) (hr : r ≠ 0) (hN : 0 < N)
    (h1 : p.zsize = some (.int Z)) (h2 : ∃ u, p.zres = some u ∧ u.num? = some (.fin dz)) {zsize : Option PyVal}
    {zrange : Option ZArg} (hask : Asked zs dz zsize zrange zs') (o : HObj) (hop : o.params = p) (heap : Heap) (ref : ℕ)
    (href : heap[ref]? = some o) (P : Arr ℂ) (hP : P.shape = [N, N]) (data : Arr ℝ) :
    ∃ a o', (∀ size, generatePsf ref P size zsize zrange heap = (resizePsf size (psfiOf a), heap ++ [o'])) ∧
      a.shape = [1, zs'.length, N, N] ∧ ∀ z y x, a.get [0, z, y, x] =
        (prProblem data w n i r zs'.length N zs').amplitude (fun i j => P.get [pixelOf N i, pixelOf N j]) z y x := by
  obtain ⟨o1, e1, hopt⟩ := setPlanes_form ho h1 h2 hask o hop
  have hnum := hopt.numbersOf hw hr hN (by simp)
  set h : HanserNum := ⟨N, r, ((i / w : ℚ) : ℝ), .fin (n / w), zs'.map fun (q : ℚ) => (q : ℝ), .none, .none⟩ with hh
  have hs : Scalar o1.params h := ⟨hnum, rfl, rfl⟩
  have hP' : (ifftshift none P).shape = [N, N] := by simp [ifftshift, alongAxes_shape, hP]
  obtain ⟨a, ha, hash, haget⟩ := psf_form hs ((n / w : ℚ) : ℝ) data (ifftshift none P) hP'
  have hprob : problemOf h ((n / w : ℚ) : ℝ) data = prProblem data w n i r zs'.length N zs' := by
    have hz : ∀ z, (zs'.map fun (q : ℚ) => (q : ℝ)).getD z 0 = ((zs'.getD z 0 : ℚ) : ℝ) := by
      intro z
      rw [List.getD_eq_getElem?_getD, List.getD_eq_getElem?_getD, List.getElem?_map]
      cases zs'[z]? <;> simp
    simp only [problemOf, prProblem]
    simp only [hh, hz, List.length_map]
  refine ⟨a, { params := o1.params, psfa := some a, psfi := some (psfiOf a) }, ?_, ?_, ?_⟩
  · intro size
    have hset : ∀ k : Unit → PyM Heap (Arr ℝ), (do
        match zsize with
        | some v => onRef heap.length (setAttr .hanser .zsize v)
        | none => pure ()
        match zrange with
        | some z => onRef heap.length (setZrange z)
        | none => pure ()
        k () : PyM Heap (Arr ℝ)) (heap ++ [o]) = k () (heap ++ [o1]) := by
      intro k
      rcases zsize with _ | v
      · rcases zrange with _ | z
        · have : o = o1 := congrArg Prod.snd e1
          rw [this]
        · have hz1 : setZrange z o = (.ok (), o1) := e1
          simp only [PyM.bind_apply, onRef_last, hz1]
      · have e1' := e1
        simp only [setPlanes, PyM.bind_apply] at e1'
        rcases hv : setAttr .hanser .zsize v o with ⟨e | u, o2⟩
        · rw [hv] at e1'; simp at e1'
        · rw [hv] at e1'
          simp only at e1'
          simp only [PyM.bind_apply, onRef_last, hv]
          rcases zrange with _ | z
          · have : o2 = o1 := congrArg Prod.snd e1'
            rw [this]
          · have hz1 : setZrange z o2 = (.ok (), o1) := e1'
            simp only [PyM.bind_apply, onRef_last, hz1]
    unfold generatePsf
    have hc : copyRef ref heap = (.ok heap.length, heap ++ [o]) := by unfold copyRef; rw [href]
    rw [PyM.bind_apply, hc]
    refine (hset (fun _ => do
      onRef heap.length (HObj.applyPupil (ifftshift none P))
      let psf ← onRef heap.length HObj.getPSFi
      PyM.lift (resizePsf size psf))).trans ?_
    simp only [PyM.bind_apply, onRef_last, applyPupil_run, ha, getPSFi_held, PyM.lift_apply]
  · simpa [hh] using hash
  · intro z y x
    rw [haget, hprob]
    refine Problem.amplitude_congr _ ?_ z y x
    intro i _ j _
    exact ifftshift2_get P N hP i j

/-! ## C68 -/

/-- C68: `complex_pupil` of a result is the last pupil of the iteration, shown with frequency zero at pixel
`(N//2, N//2)`, whatever multiples of 2 pi the unwrapping adds. -/
theorem C68_complex_pupil (unwrap : Arr ℝ → Arr ℝ) (hun : Unwraps unwrap) (data : Arr ℝ) (d : PyDict)
    (w n i r : ℚ) (Z N : ℕ) (zs : List ℚ) (hset : Setup d w n i r Z zs) (hdata : data.shape = [Z, N, N]) (hN : 2 ≤ N)
    (hZ : 0 < Z) (M : ℤ) (hM : 0 < M) (pt mt : ℝ) (b : Bool) (res : PRResult) (d' : PyDict)
    (h : retrievePhase unwrap data M pt mt b d = (.ok res, d')) :
    ∃ (P : Arr ℂ) (k : ℕ), res.complexPupil = .ok P ∧ P.shape = [N, N] ∧ (k : ℤ) ≤ M ∧
      (∀ j < k, ¬ (prProblem data w n i r Z N zs).Stops b pt mt j) ∧
      ((k : ℤ) < M → (prProblem data w n i r Z N zs).Stops b pt mt k) ∧
      ∀ y < N, ∀ x < N, P.get [y, x] = (prProblem data w n i r Z N zs).iterate b k (sampleAt N y) (sampleAt N x) := by
  obtain ⟨k, k1, k2, k3, k4⟩ := C63_pupils unwrap hun data d w n i r Z N zs hset hdata hN hZ M hM pt mt b res d' h
  obtain ⟨r1, m1, F1, p1, e1, run, -⟩ := retrieve_form unwrap hun.shape data d hset hdata hN hZ M hM pt mt b
  rw [h] at e1
  simp only [Prod.mk.injEq, Except.ok.injEq] at e1
  obtain ⟨rfl, -⟩ := e1
  have hm : res.mag.shape = [N, N] := run.magShape
  have hp : res.phase.shape = [N, N] := run.phaseShape
  obtain ⟨P, p1, p2, p3⟩ := zipB_same (fun (m p : ℝ) => (m : ℂ) * Complex.exp (Complex.I * (p : ℂ))) res.mag res.phase (by rw [hm, hp])
  rw [hm] at p2 p3
  refine ⟨P, k, p1, p2, k1, k2, k3, fun y hy x hx => ?_⟩
  have hN0 : 0 < N := by omega
  rw [p3 _ (inShape2.mpr ⟨hy, hx⟩), ← k4 _ (sampleAt_lt hN0) _ (sampleAt_lt hN0), retrieved, pixelOf_sampleAt hy, pixelOf_sampleAt hx]

theorem generate_common (unwrap : Arr ℝ → Arr ℝ) (hun : Unwraps unwrap) (data : Arr ℝ) (d : PyDict)
    (w n i r dz : ℚ) (Z N : ℕ) (zs : List ℚ) (hset : Setup d w n i r Z zs) (hdata : data.shape = [Z, N, N]) (hN : 2 ≤ N)
    (hZ : 0 < Z) (M : ℤ) (hM : 0 < M) (pt mt : ℝ) (b : Bool) (res : PRResult) (d' : PyDict)
    (h : retrievePhase unwrap data M pt mt b d = (.ok res, d'))
    (hdz : ((d.find "zres" = none ∨ d.find "zres" = some (.val .none)) ∧ dz = r) ∨ ∃ v, d.find "zres" = some (.val v) ∧ Denotes v dz)
    (zsize : Option PyVal) (zrange : Option ZArg) (zs' : List ℚ) (hask : Asked zs dz zsize zrange zs')
    (heap : Heap) (ref : ℕ) (href : heap[ref]? = some res.model) :
    ∃ psf o, (∀ size, res.generatePsf ref size zsize zrange heap = (resizePsf size psf, heap ++ [o])) ∧
      psf.shape = [zs'.length, N, N] ∧
      ∀ z y x, psf.get [z, y, x] = ‖(prProblem data w n i r zs'.length N zs').amplitude (retrieved N res) z y x‖ ^ 2 := by
  obtain ⟨r1, m1, F1, p, e1, run, hopt, hdict⟩ := retrieve_form unwrap hun.shape data d hset hdata hN hZ M hM pt mt b
  rw [h] at e1
  simp only [Prod.mk.injEq, Except.ok.injEq] at e1
  obtain ⟨rfl, -⟩ := e1
  obtain ⟨o0, f1, -, -, f2, f3⟩ := setup_model (N := N) hset
  rw [hdict] at f1
  injection f1 with f1
  rw [← f1] at f2 f3
  have hw : w ≠ 0 := hset.wl.2.ne'
  have hr : r ≠ 0 := hset.res.2.2
  have hm : res.mag.shape = [N, N] := run.magShape
  have hp : res.phase.shape = [N, N] := run.phaseShape
  obtain ⟨P, p1, p2, p3⟩ := zipB_same (fun (m p : ℝ) => (m : ℂ) * Complex.exp (Complex.I * (p : ℂ))) res.mag res.phase (by rw [hm, hp])
  rw [hm] at p2 p3
  obtain ⟨a, hmod, -⟩ := run.model
  obtain ⟨A, o', g1, g2, g3⟩ := generatePsf_form hopt hw hr (show 0 < N by omega) f2 (f3 dz hdz) hask res.model (by rw [hmod])
    heap ref href P p2 data
  have hshape : (psfiOf A).shape = [zs'.length, N, N] := psfiOf_shape A _ _ _ _ g2
  refine ⟨psfiOf A, o', fun size => ?_, hshape, fun z y x => ?_⟩
  · unfold PRResult.generatePsf
    have hcp : res.complexPupil = .ok P := p1
    simp only [PyM.bind_apply, PyM.lift_apply, hcp, g1]
  · rw [psfiOf_get A _ _ _ _ g2, Finset.sum_range_one, g3]
    congr 2
    refine Problem.amplitude_congr _ ?_ z y x
    intro i hi j hj
    have hN0 : 0 < N := by omega
    exact p3 _ (inShape2.mpr ⟨Nat.mod_lt _ hN0, Nat.mod_lt _ hN0⟩)

theorem resizePsf_none (psf : Arr ℝ) (Z N : ℕ) (hs : psf.shape = [Z, N, N]) : resizePsf none psf = .ok psf := by
  simp only [resizePsf, hs]
  rw [if_neg (by simp)]

/-- C68: `generate_psf(zsize=.., zrange=..)` of a result returns the intensities of the returned pupil in the planes asked
for (those of the data if nothing is asked for), on a copy: every existing object, the model of the result included,
is left as it was. -/
theorem C68_generate_psf (unwrap : Arr ℝ → Arr ℝ) (hun : Unwraps unwrap) (data : Arr ℝ) (d : PyDict)
    (w n i r dz : ℚ) (Z N : ℕ) (zs : List ℚ) (hset : Setup d w n i r Z zs) (hdata : data.shape = [Z, N, N]) (hN : 2 ≤ N)
    (hZ : 0 < Z) (M : ℤ) (hM : 0 < M) (pt mt : ℝ) (b : Bool) (res : PRResult) (d' : PyDict)
    (h : retrievePhase unwrap data M pt mt b d = (.ok res, d'))
    (hdz : ((d.find "zres" = none ∨ d.find "zres" = some (.val .none)) ∧ dz = r) ∨ ∃ v, d.find "zres" = some (.val v) ∧ Denotes v dz)
    (zsize : Option PyVal) (zrange : Option ZArg) (zs' : List ℚ) (hask : Asked zs dz zsize zrange zs')
    (heap : Heap) (ref : ℕ) (href : heap[ref]? = some res.model) :
    ∃ psf o, res.generatePsf ref none zsize zrange heap = (.ok psf, heap ++ [o]) ∧ psf.shape = [zs'.length, N, N] ∧
      ∀ z y x, psf.get [z, y, x] = ‖(prProblem data w n i r zs'.length N zs').amplitude (retrieved N res) z y x‖ ^ 2 := by
  obtain ⟨psf, o, g1, g2, g3⟩ := generate_common unwrap hun data d w n i r dz Z N zs hset hdata hN hZ M hM pt mt b res d' h hdz
    zsize zrange zs' hask heap ref href
  exact ⟨psf, o, by rw [g1, resizePsf_none psf _ _ g2], g2, g3⟩

/-- C68: if the iteration stopped by its rule, `generate_psf()` and `model.PSFi` of the result are the same stack. -/
theorem C68_matches_model (unwrap : Arr ℝ → Arr ℝ) (hun : Unwraps unwrap) (data : Arr ℝ) (d : PyDict)
    (w n i r : ℚ) (Z N : ℕ) (zs : List ℚ) (hset : Setup d w n i r Z zs) (hdata : data.shape = [Z, N, N]) (hN : 2 ≤ N)
    (hZ : 0 < Z) (M : ℤ) (hM : 0 < M) (pt mt : ℝ) (b : Bool) (res : PRResult) (d' : PyDict)
    (h : retrievePhase unwrap data M pt mt b d = (.ok res, d'))
    (hrule : RuleAt res.pupilDiff res.mseDiff res.mse pt mt (res.mse.length - 1))
    (heap : Heap) (ref : ℕ) (href : heap[ref]? = some res.model) :
    ∃ psf psfi o o', res.generatePsf ref none none none heap = (.ok psf, heap ++ [o]) ∧
      HObj.getPSFi res.model = (.ok psfi, o') ∧ psf.Same psfi := by
  obtain ⟨dz, -, hdz, -⟩ := hset.planes.2
  obtain ⟨psf, o, g1, g2, g3⟩ := C68_generate_psf unwrap hun data d w n i r dz Z N zs hset hdata hN hZ M hM pt mt b res d' h hdz
    none none zs ⟨Or.inl rfl, rfl⟩ heap ref href
  obtain ⟨Q, psfi, o', q1, q2, q3, -, q4, -⟩ := C66_consistency unwrap hun data d w n i r Z N zs hset hdata hN hZ M hM pt mt b res d' h
  have hlen : zs.length = Z := hset.planes.1
  refine ⟨psf, psfi, o, o', g1, q1, by rw [g2, q2, hlen], fun idx hidx => ?_⟩
  rw [g2] at hidx
  obtain ⟨z, y, x, rfl⟩ : ∃ a b c, idx = [a, b, c] := by
    cases hidx with
    | @cons a _ ja _ _ hj => cases hj with
      | @cons b _ jb _ _ hj => cases hj with
        | @cons c _ jc _ _ hj => cases hj; exact ⟨a, b, c, rfl⟩
  rw [g3, q3, hlen]
  congr 2
  exact Problem.amplitude_congr (prProblem data w n i r Z N zs) (q4 hrule) z y x

/-! ## C69 -/

theorem aligned3 {Z N s z y x y' x' : ℕ} (hy : (y : ℤ) - ((s + 1) / 2 : ℕ) = (y' : ℤ) - ((N + 1) / 2 : ℕ))
    (hx : (x : ℤ) - ((s + 1) / 2 : ℕ) = (x' : ℤ) - ((N + 1) / 2 : ℕ)) : Aligned [Z, N, N] [Z, s, s] [z, y, x] [z, y', x'] :=
  ⟨rfl, hy, hx, trivial⟩

/-- `size=s` on a stack of `N`x`N` images. -/
theorem resizePsf_form (psf : Arr ℝ) (Z N : ℕ) (hs : psf.shape = [Z, N, N]) (s : ℤ) :
    ∃ out, resizePsf (some s) psf = .ok out ∧ out.shape = [Z, s.toNat, s.toNat] ∧
      (s ≤ N → ∀ z y x : ℕ, (y : ℤ) < s → (x : ℤ) < s → out.get [z, y, x] =
        psf.get [z, y + N / 2 - (s / 2).toNat, x + N / 2 - (s / 2).toNat]) ∧
      ((N : ℤ) < s → ∀ z < Z, ∀ y x : ℕ, (y : ℤ) < s → (x : ℤ) < s →
        (∀ y' < N, ∀ x' < N, (y : ℤ) - (s + 1) / 2 = (y' : ℤ) - ((N : ℤ) + 1) / 2 → (x : ℤ) - (s + 1) / 2 = (x' : ℤ) - ((N : ℤ) + 1) / 2 →
          out.get [z, y, x] = psf.get [z, y', x']) ∧
        ((∀ v < N, (y : ℤ) - (s + 1) / 2 ≠ (v : ℤ) - ((N : ℤ) + 1) / 2) ∨
          (∀ v < N, (x : ℤ) - (s + 1) / 2 ≠ (v : ℤ) - ((N : ℤ) + 1) / 2) → out.get [z, y, x] = 0)) := by
  rcases lt_trichotomy (N : ℤ) s with hlt | heq | hgt
  · obtain ⟨m, rfl⟩ := Int.eq_ofNat_of_zero_le (show 0 ≤ s by omega)
    have hreq : requested psf.shape [some Z, some m, some m] = [Z, m, m] := by rw [hs]; rfl
    obtain ⟨out, h1, h2⟩ := C01_fft_pad_shape id psf [some Z, some m, some m] .constant (by rw [hs]; simp) (by rw [hs]; rfl) (Or.inl rfl)
    rw [hreq] at h2
    refine ⟨out, ?_, ?_, by omega, fun _ z hz y x hy hx => ⟨?_, ?_⟩⟩
    · unfold resizePsf
      simp only [hs]
      rw [if_neg (by simp), if_pos hlt]
      exact h1
    · rw [h2]; simp
    · intro y' hy' x' hx' e1 e2
      refine C02_fft_pad_aligned id psf out _ .constant (by rw [hs]; simp) (by rw [hs]; rfl) (Or.inl rfl) h1 [z, y, x] [z, y', x'] ?_ ?_ ?_
      · rw [h2]; exact inShape3.mpr ⟨hz, by omega, by omega⟩
      · rw [hs]; exact inShape3.mpr ⟨hz, hy', hx'⟩
      · rw [hs, h2]
        exact aligned3 (by push_cast; omega) (by push_cast; omega)
    · intro hout
      refine C02_fft_pad_zero_elsewhere id psf out _ (by rw [hs]; simp) (by rw [hs]; rfl) h1 [z, y, x] ?_ ?_
      · rw [h2]; exact inShape3.mpr ⟨hz, by omega, by omega⟩
      · intro j hj hal
        rw [hs] at hj hal
        rw [h2] at hal
        obtain ⟨a, b, c, rfl⟩ : ∃ a b c, j = [a, b, c] := by
          cases hj with
          | @cons a _ ja _ _ hj => cases hj with
            | @cons b _ jb _ _ hj => cases hj with
              | @cons c _ jc _ _ hj => cases hj; exact ⟨a, b, c, rfl⟩
        obtain ⟨-, hb, hc⟩ := inShape3.mp hj
        obtain ⟨-, ab, ac, -⟩ := hal
        push_cast at ab ac
        rcases hout with h | h
        · exact h b hb ab
        · exact h c hc ac
  · subst heq
    refine ⟨psf, ?_, by simpa using hs, ?_, by omega⟩
    · unfold resizePsf
      simp only [hs]
      rw [if_neg (by simp), if_neg (by omega), if_neg (by omega)]
    · intro _ z y x _ _
      have : ∀ a : ℕ, a + N / 2 - ((N : ℤ) / 2).toNat = a := by intro a; omega
      rw [this, this]
  · set sl : Slice := ⟨some ((N / 2 : ℕ) - s / 2), some ((N / 2 : ℕ) + (s - s / 2))⟩ with hsl
    have hlen : sl.len N = s.toNat := by
      simp only [hsl, Slice.len, Slice.hi, Slice.lo, Option.elim, clipBound]
      split_ifs <;> omega
    have hlo : 0 ≤ s → sl.lo N = N / 2 - (s / 2).toNat := by
      intro _
      simp only [hsl, Slice.lo, Option.elim, clipBound]
      split_ifs <;> omega
    refine ⟨psf.slice [Slice.all, sl, sl], ?_, ?_, ?_, by omega⟩
    · unfold resizePsf
      simp only [hs]
      rw [if_neg (by simp), if_neg (by omega), if_pos hgt]
    · rw [slice_shape_full _ _ (by rw [hs]; rfl), hs]
      simp only [List.zipWith_cons_cons, List.zipWith_nil_left, hlen]
      rfl
    · intro _ z y x hy hx
      rw [slice_get_full _ _ (by rw [hs]; rfl), hs]
      simp only [List.zipWith_cons_cons, List.zipWith_nil_left, hlo (by omega)]
      have : ∀ a : ℕ, N / 2 - (s / 2).toNat + a = a + N / 2 - (s / 2).toNat := by intro a; omega
      rw [this, this]
      have h0 : Slice.all.lo Z = 0 := rfl
      rw [h0, Nat.zero_add]

/-- C69: `generate_psf(size=s)` has images of `s` x `s` pixels for every `s` (none for `s <= 0`).  For `s <= N` they are
the central part of those of `generate_psf()`, with pixel `(N//2, N//2)` at `(s//2, s//2)`; for `s > N` they contain
them surrounded by zeros, pixel `(N+1)//2` at `(s+1)//2`. -/
theorem C69_size (unwrap : Arr ℝ → Arr ℝ) (hun : Unwraps unwrap) (data : Arr ℝ) (d : PyDict)
    (w n i r dz : ℚ) (Z N : ℕ) (zs : List ℚ) (hset : Setup d w n i r Z zs) (hdata : data.shape = [Z, N, N]) (hN : 2 ≤ N)
    (hZ : 0 < Z) (M : ℤ) (hM : 0 < M) (pt mt : ℝ) (b : Bool) (res : PRResult) (d' : PyDict)
    (h : retrievePhase unwrap data M pt mt b d = (.ok res, d'))
    (hdz : ((d.find "zres" = none ∨ d.find "zres" = some (.val .none)) ∧ dz = r) ∨ ∃ v, d.find "zres" = some (.val v) ∧ Denotes v dz)
    (zsize : Option PyVal) (zrange : Option ZArg) (zs' : List ℚ) (hask : Asked zs dz zsize zrange zs')
    (heap : Heap) (ref : ℕ) (href : heap[ref]? = some res.model) (s : ℤ) :
    ∃ full out o o', res.generatePsf ref none zsize zrange heap = (.ok full, heap ++ [o]) ∧ full.shape = [zs'.length, N, N] ∧
      res.generatePsf ref (some s) zsize zrange heap = (.ok out, heap ++ [o']) ∧ out.shape = [zs'.length, s.toNat, s.toNat] ∧
      (s ≤ N → ∀ z y x : ℕ, (y : ℤ) < s → (x : ℤ) < s → out.get [z, y, x] =
        full.get [z, y + N / 2 - (s / 2).toNat, x + N / 2 - (s / 2).toNat]) ∧
      ((N : ℤ) < s → ∀ z < zs'.length, ∀ y x : ℕ, (y : ℤ) < s → (x : ℤ) < s →
        (∀ y' < N, ∀ x' < N, (y : ℤ) - (s + 1) / 2 = (y' : ℤ) - ((N : ℤ) + 1) / 2 → (x : ℤ) - (s + 1) / 2 = (x' : ℤ) - ((N : ℤ) + 1) / 2 →
          out.get [z, y, x] = full.get [z, y', x']) ∧
        ((∀ v < N, (y : ℤ) - (s + 1) / 2 ≠ (v : ℤ) - ((N : ℤ) + 1) / 2) ∨
          (∀ v < N, (x : ℤ) - (s + 1) / 2 ≠ (v : ℤ) - ((N : ℤ) + 1) / 2) → out.get [z, y, x] = 0)) := by
  obtain ⟨full, o, g1, g2, g3⟩ := generate_common unwrap hun data d w n i r dz Z N zs hset hdata hN hZ M hM pt mt b res d' h hdz
    zsize zrange zs' hask heap ref href
  obtain ⟨out, q1, q2, q3, q4⟩ := resizePsf_form full _ N g2 s
  exact ⟨full, out, o, o, by rw [g1, resizePsf_none full _ _ g2], g2, by rw [g1, q1], q2, q3, q4⟩

/-- C69: where the central pixel of a plane goes.  Cropping (and padding by an even number) keeps it in the centre;
padding by an odd number moves it by one pixel. -/
theorem C69_centre (psf out : Arr ℝ) (Z N s : ℕ) (hs : psf.shape = [Z, N, N]) (hN : 0 < N) (hpos : 0 < s)
    (h : resizePsf (some (s : ℤ)) psf = .ok out) (z : ℕ) (hz : z < Z) :
    ((s ≤ N ∨ N % 2 = s % 2) → out.get [z, s / 2, s / 2] = psf.get [z, N / 2, N / 2]) ∧
    (N < s → N % 2 = 0 → s % 2 = 1 → out.get [z, s / 2 + 1, s / 2 + 1] = psf.get [z, N / 2, N / 2]) ∧
    (N < s → N % 2 = 1 → s % 2 = 0 → out.get [z, s / 2 - 1, s / 2 - 1] = psf.get [z, N / 2, N / 2]) := by
  obtain ⟨out', h1, -, h2, h3⟩ := resizePsf_form psf Z N hs s
  rw [h] at h1
  injection h1 with h1
  subst h1
  refine ⟨fun hc => ?_, fun hlt he ho => ?_, fun hlt he ho => ?_⟩
  · by_cases hle : s ≤ N
    · rw [h2 (by omega) z (s / 2) (s / 2) (by omega) (by omega)]
      have : s / 2 + N / 2 - ((s : ℤ) / 2).toNat = N / 2 := by omega
      rw [this]
    · exact (h3 (by omega) z hz (s / 2) (s / 2) (by omega) (by omega)).1 (N / 2) (by omega) (N / 2) (by omega) (by omega) (by omega)
  · exact (h3 (by omega) z hz _ _ (by omega) (by omega)).1 (N / 2) (by omega) (N / 2) (by omega) (by omega) (by omega)
  · exact (h3 (by omega) z hz _ _ (by omega) (by omega)).1 (N / 2) (by omega) (N / 2) (by omega) (by omega) (by omega)

/-- Non-vacuity: the demo dictionary, five planes asked for, images enlarged to 11 pixels. -/
example : ∃ res d', retrievePhase id ⟨[3, 8, 8], fun _ => 0⟩ 2 0 0 false demoDict = (.ok res, d') ∧
    ∃ out o, res.generatePsf 0 (some 11) (some (.int 5)) none [res.model] = (.ok out, [res.model, o]) ∧ out.shape = [5, 11, 11] := by
  have hun : Unwraps (id : Arr ℝ → Arr ℝ) := ⟨fun _ => rfl, fun a idx => ⟨0, by simp⟩⟩
  obtain ⟨res, m, F, p, h, -⟩ := retrieve_form id hun.shape ⟨[3, 8, 8], fun _ => 0⟩ demoDict (demoDict_setup 3) rfl (by norm_num)
    (by norm_num) 2 (by norm_num) 0 0 false
  refine ⟨res, _, h, ?_⟩
  obtain ⟨full, out, o, o', -, -, h1, h2, -⟩ := C69_size id hun ⟨[3, 8, 8], fun _ => 0⟩ demoDict _ _ _ _ 200 3 8 _ (demoDict_setup 3) rfl
    (by norm_num) (by norm_num) 2 (by norm_num) 0 0 false res _ h (Or.inr ⟨_, rfl, rfl⟩) (some (.int 5)) none
    ((List.range 5).map fun (k : ℕ) => ((k : ℚ) - ((5 + 1) / 2 : ℕ)) * 200) ⟨Or.inr ⟨5, rfl⟩, 5, rfl, rfl⟩ [res.model] 0 rfl 11
  exact ⟨out, o', h1, by simpa using h2⟩

end PyOTF
