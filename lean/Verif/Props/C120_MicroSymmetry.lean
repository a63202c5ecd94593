import Verif.Props.C115_C116_ConfocalOtf
import Verif.Props.C95_Apotome
import Verif.Props.C46_C48_Symmetry

/-!
# C120: symmetry of the PSFs of the microscopes
-/

namespace PyOTF

open Physics Complex

/-! ## Specification -/

/-- Mirror symmetry of a stack of `Z` images of `N` x `N` pixels: in z about plane `(Z + 1) // 2`; in y and in x about pixel `N // 2`, coordinates
modulo `N`, for the coordinates that satisfy `A`. -/
structure MirrorSymmetric (a : Arr ℝ) (Z N : ℕ) (A : ℕ → Prop) : Prop where
  z : ∀ z < Z, ∀ z' < Z, z + z' = 2 * ((Z + 1) / 2) → ∀ y < N, ∀ x < N, a.get [z', y, x] = a.get [z, y, x]
  y : ∀ z < Z, ∀ y < N, ∀ y' < N, ∀ x < N, A y → (N : ℤ) ∣ (y : ℤ) + y' - 2 * (N / 2 : ℕ) → a.get [z, y', x] = a.get [z, y, x]
  x : ∀ z < Z, ∀ y < N, ∀ x < N, ∀ x' < N, A x → (N : ℤ) ∣ (x : ℤ) + x' - 2 * (N / 2 : ℕ) → a.get [z, y, x'] = a.get [z, y, x]

/-- Symmetry under the exchange of y and x. -/
def ExchangeSymmetric (a : Arr ℝ) (Z N : ℕ) : Prop := ∀ z < Z, ∀ y < N, ∀ x < N, a.get [z, x, y] = a.get [z, y, x]

/-! ## Proofs -/

/-- Finer pixel `d` of camera pixel `y`. -/
def finePixel (o n y d : ℕ) : ℕ := cyc (n * o) (((n * o / 2 : ℕ) : ℤ) + ((y : ℤ) - (n / 2 : ℕ)) * o + ((d : ℤ) - (o / 2 : ℕ)))

theorem cyc_dvd' {N : ℕ} (hN : 0 < N) (k : ℤ) : (N : ℤ) ∣ k - (cyc N k : ℕ) := by
  have h1 := Int.emod_nonneg k (by omega : (N : ℤ) ≠ 0)
  rw [cyc, Int.toNat_of_nonneg h1]
  exact Int.dvd_self_sub_emod

theorem finePixel_mirror {o n y y' d : ℕ} (ho : o % 2 = 1) (hM : 0 < n * o) (hd : d < o) (hy : (n : ℤ) ∣ (y : ℤ) + y' - 2 * (n / 2 : ℕ)) :
    ((n * o : ℕ) : ℤ) ∣ (finePixel o n y d : ℤ) + finePixel o n y' (o - 1 - d) - 2 * (n * o / 2 : ℕ) := by
  obtain ⟨u, hu⟩ := hy
  obtain ⟨v, hv⟩ := cyc_dvd' hM (((n * o / 2 : ℕ) : ℤ) + ((y : ℤ) - (n / 2 : ℕ)) * o + ((d : ℤ) - (o / 2 : ℕ)))
  obtain ⟨v', hv'⟩ := cyc_dvd' hM (((n * o / 2 : ℕ) : ℤ) + ((y' : ℤ) - (n / 2 : ℕ)) * o + (((o - 1 - d : ℕ) : ℤ) - (o / 2 : ℕ)))
  have e : ((o - 1 - d : ℕ) : ℤ) = o - 1 - d := by omega
  have e2 : (o : ℤ) - 1 = 2 * (o / 2 : ℕ) := by omega
  refine ⟨u - v - v', ?_⟩
  unfold finePixel
  rw [e] at hv' ⊢
  simp only [Nat.cast_mul] at hv hv' ⊢
  linear_combination (o : ℤ) * hu - hv - hv' + e2

theorem superPixel_eq (o n : ℕ) (f : ℕ → ℕ → ℝ) (y x : ℕ) : superPixel o n f y x =
    ∑ dy ∈ Finset.range o, ∑ dx ∈ Finset.range o, f (finePixel o n y dy) (finePixel o n x dx) := rfl

/-- The camera keeps the symmetries. -/
theorem camera_symmetric {o n nz : ℕ} (ho : o % 2 = 1) (hn : 0 < n) {c p : Arr ℝ} {s : ℝ}
    (hp : ∀ z < nz, ∀ y < n, ∀ x < n, p.get [z, y, x] = superPixel o n (fun i j => c.get [z, i, j]) y x / s) (A A' : ℕ → Prop)
    (hA : ∀ y < n, A' y → ∀ d < o, A (finePixel o n y d)) :
    (MirrorSymmetric c nz (n * o) A → MirrorSymmetric p nz n A') ∧ (ExchangeSymmetric c nz (n * o) → ExchangeSymmetric p nz n) := by
  have hM : 0 < n * o := Nat.mul_pos hn (by omega)
  have lt : ∀ y d, finePixel o n y d < n * o := fun y d => cyc_lt hM _
  constructor
  · intro h
    refine ⟨fun z hz z' hz' hzz y hy x hx => ?_, fun z hz y hy y' hy' x hx hAy hd => ?_, fun z hz y hy x hx x' hx' hAx hd => ?_⟩
    · rw [hp z' hz' y hy x hx, hp z hz y hy x hx, superPixel_eq, superPixel_eq]
      congr 1
      exact Finset.sum_congr rfl fun dy _ => Finset.sum_congr rfl fun dx _ => h.z z hz z' hz' hzz _ (lt _ _) _ (lt _ _)
    · rw [hp z hz y' hy' x hx, hp z hz y hy x hx, superPixel_eq, superPixel_eq, ← Finset.sum_range_reflect]
      congr 1
      refine Finset.sum_congr rfl fun dy hdy => Finset.sum_congr rfl fun dx _ => ?_
      have hdy' := Finset.mem_range.mp hdy
      exact h.y z hz _ (lt _ _) _ (lt _ _) _ (lt _ _) (hA y hy hAy dy hdy') (finePixel_mirror ho hM hdy' hd)
    · rw [hp z hz y hy x' hx', hp z hz y hy x hx, superPixel_eq, superPixel_eq]
      congr 1
      refine Finset.sum_congr rfl fun dy hdy => ?_
      rw [← Finset.sum_range_reflect]
      refine Finset.sum_congr rfl fun dx hdx => ?_
      have hdx' := Finset.mem_range.mp hdx
      exact h.x z hz _ (lt _ _) _ (lt _ _) _ (lt _ _) (hA x hx hAx dx hdx') (finePixel_mirror ho hM hdx' hd)
  · intro h z hz y hy x hx
    rw [hp z hz x hx y hy, hp z hz y hy x hx, superPixel_eq, superPixel_eq, Finset.sum_comm]
    congr 1
    exact Finset.sum_congr rfl fun dy _ => Finset.sum_congr rfl fun dx _ => h z hz _ (lt _ _) _ (lt _ _)

/-- A stack whose PSF can be normalised is not dark. -/
theorem microPsf_lit {o n nz : ℕ} (ho : o % 2 = 1) {c p : Arr ℝ} (hs : c.shape = [nz, n * o, n * o]) (hp : microPsf o (n * o) c = .ok p) :
    c.sum ≠ 0 := by
  intro h0
  have hopos : 0 < o := by omega
  have main : ∀ b, binned o (n * o) c = .ok b → b.sum = c.sum := by
    intro b hb
    unfold binned at hb
    by_cases h1 : (1 : ℤ) < o
    · have ht : ((o : ℤ)).toNat = o := by simp
      simp only [h1, if_true, ht] at hb
      set r := (if n * o % 2 = 0 then (c.roll ((o : ℤ) / 2) 1).roll ((o : ℤ) / 2) 2 else c) with hr
      have hrs : r.shape = [nz, n * o, n * o] := by
        rw [hr]; split_ifs
        · exact hs
        · exact hs
      have hrsum : r.sum = c.sum := by
        rw [hr]; split_ifs
        · exact roll2_sum _ _
        · rfl
      have hbc : (BinSize.seq [1, o, o]).broadcast r.shape.length = .ok [1, o, o] := by simp [BinSize.broadcast, hrs]
      have hz : 0 ∉ [1, o, o] := by simp; omega
      have hop : OpIs "sum" false := by unfold OpIs; decide +kernel
      rw [← hrsum]
      refine C17_bin_total r _ _ hbc hz ?_ "sum" hop b hb
      rw [hrs]
      exact .cons (one_dvd _) (.cons (dvd_mul_left _ _) (.cons (dvd_mul_left _ _) .nil))
    · simp only [h1, if_false] at hb
      cases hb; rfl
  unfold microPsf at hp
  rcases hb : binned o (n * o) c with e | b
  · rw [hb] at hp; cases hp
  · rw [hb] at hp
    simp only [Except.bind, normalised, main b hb, h0, if_true] at hp
    cases hp

/-- What `PSF` is when it can be read for the first time. -/
theorem psf_of_model {m : Micro} {o n nz : ℕ} (ho : o % 2 = 1) (hov : m.oversample = .int o) (hsz : m.psfParams.size = .int (n * o))
    (hcache : m.psf = none) {c p : Arr ℝ} (hc : (Micro.modelPsf m).1 = .ok c) (hs : c.shape = [nz, n * o, n * o]) (hp : (Micro.getPSF m).1 = .ok p) :
    p.shape = [nz, n, n] ∧ ∀ z < nz, ∀ y < n, ∀ x < n, p.get [z, y, x] = superPixel o n (fun i j => c.get [z, i, j]) y x / c.sum := by
  rw [getPSF_run, hcache] at hp
  rcases hm : Micro.modelPsf m with ⟨e | c', m'⟩
  · rw [hm] at hc; cases hc
  · rw [hm] at hc hp; cases hc
    have e4 : (pyInt m.psfParams.size).toNat = n * o := by
      rw [hsz]; exact_mod_cast Int.toNat_natCast (n * o)
    simp only [e4] at hp
    rw [hov, show pyInt (.int (o : ℤ)) = (o : ℤ) from rfl] at hp
    have h0 : c.sum ≠ 0 := by
      rcases hq : microPsf o (n * o) c with e | p'
      · rw [hq] at hp; cases hp
      · exact microPsf_lit ho hs hq
    obtain ⟨p', f1, f2, f3⟩ := C54_super_pixel o n nz ho c hs h0
    rw [f1] at hp
    cases hp
    exact ⟨f2, f3⟩

theorem plane_neg {nz : ℕ} {z : ℚ} {k k' : ℕ} (hk : k < nz) (hk' : k' < nz) (h : k + k' = 2 * ((nz + 1) / 2)) :
    ((List.range nz).map (plane nz z)).getD k' 0 = -((List.range nz).map (plane nz z)).getD k 0 := by
  have hq : (k : ℚ) + k' = 2 * ((nz + 1) / 2 : ℕ) := by exact_mod_cast h
  simp only [List.getD_eq_getElem?_getD, List.getElem?_map, List.getElem?_range hk, List.getElem?_range hk', Option.map_some, Option.getD_some, plane]
  linear_combination z * hq

/-- The PSF of an ideal model on the default planes has all the symmetries. -/
theorem ideal_symmetric {s : HSpec} {w n i r z : ℚ} {N nz : ℕ} {v : VecCorr} {cd : Condition}
    (hI : Ideal s w n i r N ((List.range nz).map (plane nz z)) v cd) {b : Arr ℝ} (hb : s.PSFi = .ok b) (A : ℕ → Prop) :
    MirrorSymmetric b nz N A ∧ (v = .none ∨ v = .z ∨ v = .total → ExchangeSymmetric b nz N) := by
  have opp : ∀ x < N, (N : ℤ) ∣ (x : ℤ) + (cyc N (2 * (N / 2 : ℕ) - x) : ℕ) - 2 * (N / 2 : ℕ) := by
    intro x hx
    obtain ⟨u, hu⟩ := cyc_dvd' (by omega : 0 < N) (2 * (N / 2 : ℕ) - x)
    exact ⟨-u, by linear_combination -hu⟩
  refine ⟨⟨fun z hz z' hz' hzz y _ x _ => C46_defocus s hI b hb z z' (plane_neg hz hz' hzz) y x, fun z _ y hy y' _ x hx _ hd =>
    (C46_mirror s hI b hb z y y' x _ hd (opp x hx)).1, fun z _ y hy x _ x' _ _ hd => (C46_mirror s hI b hb z y _ x x' (opp y hy) hd).2.1⟩,
    fun hv z _ y _ x _ => C46_exchange s hI hv b hb z y x⟩

/-- The model of a microscope with ordinary arguments is ideal. -/
theorem ordinary_ideal {a : MicroArgs} {o n nz : ℕ} {q w na i z : ℚ} (ha : OrdinaryArgs a o n nz q w na i z) {h : HObj} {v : VecCorr}
    {cd : Condition} (hO : Optics h.params w na i (q / o) (n * o) ((List.range nz).map (plane nz z)) v cd) :
    Ideal ⟨h.params, none⟩ w na i (q / o) (n * o) ((List.range nz).map (plane nz z)) v cd :=
  ⟨rfl, hO, ha.hw, ha.hna0, div_pos ha.q_pos (by exact_mod_cast (by have := ha.odd; omega : 0 < o)), ha.hres⟩

theorem keyword_exchange {s : PyVal} {v : VecCorr} (h : keyword VecCorr.ofString s = .ok v) (hs : s = .str "none" ∨ s = .str "total") :
    v = .none ∨ v = .z ∨ v = .total := by
  rcases hs with rfl | rfl
  · left; simp only [keyword, VecCorr.ofString] at h; cases h; rfl
  · right; right; simp only [keyword, VecCorr.ofString] at h; cases h; rfl

/-- C120: the PSF of a widefield microscope. -/
theorem C120_widefield (a : MicroArgs) (o n nz : ℕ) (q w na i z : ℚ) (ha : OrdinaryArgs a o n nz q w na i z) :
    ∃ m p, Micro.newWidefield a = .ok m ∧ (Micro.getPSF m).1 = .ok p ∧ p.shape = [nz, n, n] ∧ MirrorSymmetric p nz n (fun _ => True) ∧
      (a.kw.vecCorr.getD (.str "none") = .str "none" ∨ a.kw.vecCorr.getD (.str "none") = .str "total" → ExchangeSymmetric p nz n) := by
  obtain ⟨m, h, b, hm, hmod, hb, hbs, hbpos, p, hp, hps, hpget⟩ := C54_widefield a o n nz ha.odd ha.n_pos ha.nz_pos q w na i z ha.q_pos.ne' ha.hmod
    ha.hdual ha.hzr ha.hov ha.hsize ha.hpix ha.hwl ha.hw ha.hna ha.hna0 ha.hni ha.hi ha.hres ha.hz ha.hz0 ha.hzs ha.hspec ha.hvc ha.hcd
  obtain ⟨h', v, cd, hnew, hh, hvz, hO⟩ := widefield_setup a o n nz ha.odd q w na i z ha.hmod ha.hdual ha.hzr ha.hov ha.hsize ha.hpix ha.hwl ha.hw
    ha.hna ha.hna0 ha.hni ha.hi ha.hres ha.hz ha.hz0 ha.hzs ha.hspec ha.hvc ha.hcd
  have hh' : h' = h := by
    rw [hnew] at hm; cases hm
    cases hmod; rfl
  subst hh'
  have hrel : HRel h' ⟨h'.params, none⟩ := by
    obtain ⟨r1, r2⟩ := hanser_ready hh
    rw [r2]; exact HRel.cleared r1
  have hb' : (⟨h'.params, none⟩ : HSpec).PSFi = .ok b := by rw [← (getPSFi_rel hrel).1, hb]
  have hkv : keyword VecCorr.ofString (a.kw.vecCorr.getD (.str "none")) = .ok v := by
    obtain ⟨l, x, z', vc, cd1, a1, a2, a3, a4, a4', a4'', a5, a6, a6', a7, a8, a9, e⟩ := (hanser_new_iff _ none h').mp hh
    have f1 := hO.vecCorr
    rw [e] at f1
    cases f1
    exact a8
  obtain ⟨s1, s2⟩ := ideal_symmetric (ordinary_ideal ha hO) hb' (fun _ => True)
  obtain ⟨t1, t2⟩ := camera_symmetric ha.odd ha.n_pos hpget (fun _ => True) (fun _ => True) fun _ _ _ _ _ => trivial
  exact ⟨m, p, hm, hp, hps, t1 s1, fun hv => t2 (s2 (keyword_exchange hkv hv))⟩

/-- C120: the PSF of an Apotome microscope. -/
theorem C120_apotome (a : MicroArgs) (o n nz : ℕ) (q w na i z : ℚ) (ha : OrdinaryArgs a o n nz q w na i z) :
    ∃ m, Micro.newApotome a = .ok m ∧ ∀ p, (Micro.getPSF m).1 = .ok p → p.shape = [nz, n, n] ∧ MirrorSymmetric p nz n (fun _ => True) ∧
      (a.kw.vecCorr.getD (.str "none") = .str "none" ∨ a.kw.vecCorr.getD (.str "none") = .str "total" → ExchangeSymmetric p nz n) := by
  obtain ⟨m, h, b, c, k, hm, hmod, hb, hc, hbs, hcs, -, hget⟩ := C95_hanser a o n nz ha.odd ha.n_pos ha.nz_pos q w na i z ha.q_pos ha.hmod
    ha.hdual ha.hzr ha.hov ha.hsize ha.hpix ha.hwl ha.hw ha.hna ha.hna0 ha.hni ha.hi ha.hres ha.hz ha.hz0 ha.hzs ha.hspec ha.hvc ha.hcd
  obtain ⟨h', v, cd, hnew, hh, hvz, hO⟩ := widefield_setup a o n nz ha.odd q w na i z ha.hmod ha.hdual ha.hzr ha.hov ha.hsize ha.hpix ha.hwl ha.hw
    ha.hna ha.hna0 ha.hni ha.hi ha.hres ha.hz ha.hz0 ha.hzs ha.hspec ha.hvc ha.hcd
  refine ⟨m, hm, fun p hp => ?_⟩
  have hnewA : Micro.newApotome a = .ok (Micro.mk (.int o) (ordinaryParams a n o q) a.pixelSize (.hanser h') .apotome none none) := by
    rw [Micro.newApotome, hnew]; rfl
  rw [hnewA] at hm
  cases hm
  cases hmod
  have hrel : HRel h ⟨h.params, none⟩ := by
    obtain ⟨r1, r2⟩ := hanser_ready hh
    rw [r2]; exact HRel.cleared r1
  have hb' : (⟨h.params, none⟩ : HSpec).PSFi = .ok b := by rw [← (getPSFi_rel hrel).1, hb]
  have hkv : keyword VecCorr.ofString (a.kw.vecCorr.getD (.str "none")) = .ok v := by
    obtain ⟨l, x, z', vc, cd1, a1, a2, a3, a4, a4', a4'', a5, a6, a6', a7, a8, a9, e⟩ := (hanser_new_iff _ none h).mp hh
    have f1 := hO.vecCorr
    rw [e] at f1
    cases f1
    exact a8
  obtain ⟨s1, s2⟩ := ideal_symmetric (ordinary_ideal ha hO) hb' (fun _ => True)
  obtain ⟨hps, hpget⟩ := psf_of_model ha.odd rfl rfl rfl hc hcs hp
  obtain ⟨t1, t2⟩ := camera_symmetric ha.odd ha.n_pos hpget (fun _ => True) (fun _ => True) fun _ _ _ _ _ => trivial
  refine ⟨hps, t1 ⟨fun z hz z' hz' hzz y hy x hx => ?_, fun z hz y hy y' hy' x hx hA hd => ?_, fun z hz y hy x hx x' hx' hA hd => ?_⟩,
    fun hv => t2 fun z hz y hy x hx => ?_⟩
  · have e1 : ∀ y ∈ Finset.range (n * o), ∀ x ∈ Finset.range (n * o), b.get [z', y, x] = b.get [z, y, x] := fun y hy x hx =>
      s1.z z hz z' hz' hzz y (Finset.mem_range.mp hy) x (Finset.mem_range.mp hx)
    have e2 : planeEnergy b (n * o) z' = planeEnergy b (n * o) z :=
      Finset.sum_congr rfl fun y hy => Finset.sum_congr rfl fun x hx => e1 y hy x hx
    have e3 : ∀ p q, planeSpectrum b (n * o) z' p q = planeSpectrum b (n * o) z p q := fun p q =>
      Finset.sum_congr rfl fun y hy => Finset.sum_congr rfl fun x hx => by rw [e1 y hy x hx]
    have e4 : ringMean b (n * o) z' (k / 2) = ringMean b (n * o) z (k / 2) := by
      simp only [ringMean, e3]
    rw [((hget z' hz').2 y x).1, ((hget z hz).2 y x).1, e2, e4, s1.z z hz z' hz' hzz y hy x hx]
  · rw [((hget z hz).2 y' x).1, ((hget z hz).2 y x).1, s1.y z hz y hy y' hy' x hx hA hd]
  · rw [((hget z hz).2 y x').1, ((hget z hz).2 y x).1, s1.x z hz y hy x hx x' hx' hA hd]
  · rw [((hget z hz).2 x y).1, ((hget z hz).2 y x).1, s2 (keyword_exchange hkv hv) z hz y hy x hx]

/-- The pinhole keeps a mirror symmetry where it does not see past the edge, and everywhere on a grid of odd size. -/
theorem pinhole_symmetric {R : ℝ} (hR : 0 < R) {d : Arr ℝ} {Z N : ℕ} (hd : MirrorSymmetric d Z N (fun _ => True)) :
    (∀ z < Z, ∀ z' < Z, z + z' = 2 * ((Z + 1) / 2) → ∀ y x, throughPinhole R d N N z' y x = throughPinhole R d N N z y x) ∧
    (∀ z < Z, ∀ y < N, ∀ y' < N, ∀ x, N % 2 = 1 ∨ (R ≤ y ∧ R ≤ N - y) → (N : ℤ) ∣ (y : ℤ) + y' - 2 * (N / 2 : ℕ) →
      throughPinhole R d N N z y' x = throughPinhole R d N N z y x) ∧
    (∀ z < Z, ∀ y, ∀ x < N, ∀ x' < N, N % 2 = 1 ∨ (R ≤ x ∧ R ≤ N - x) → (N : ℤ) ∣ (x : ℤ) + x' - 2 * (N / 2 : ℕ) →
      throughPinhole R d N N z y x' = throughPinhole R d N N z y x) := by
  have hneg : ∀ u : ℤ × ℤ, u ∈ disk R → (-u.1, u.2) ∈ disk R ∧ (u.1, -u.2) ∈ disk R := by
    intro u hu
    rw [mem_disk hR] at hu
    constructor <;> rw [mem_disk hR] <;> push_cast <;> simpa using hu
  have habs : ∀ u : ℤ × ℤ, u ∈ disk R → |(u.1 : ℝ)| < R ∧ |(u.2 : ℝ)| < R := by
    intro u hu
    rw [mem_disk hR] at hu
    exact ⟨abs_lt_of_sq_lt_sq (by nlinarith [sq_nonneg (u.2 : ℝ)]) hR.le, abs_lt_of_sq_lt_sq (by nlinarith [sq_nonneg (u.1 : ℝ)]) hR.le⟩
  -- the mirrored coordinate
  have coord : ∀ y < N, ∀ y' < N, (N % 2 = 1 ∨ (R ≤ y ∧ R ≤ N - y)) → (N : ℤ) ∣ (y : ℤ) + y' - 2 * (N / 2 : ℕ) → ∀ k : ℤ, |(k : ℝ)| < R →
      ((0 ≤ (y' : ℤ) - k ∧ (y' : ℤ) - k < N) ↔ (0 ≤ (y : ℤ) + k ∧ (y : ℤ) + k < N)) ∧
      (N : ℤ) ∣ (y : ℤ) + k + ((y' : ℤ) - k) - 2 * (N / 2 : ℕ) := by
    intro y hy y' hy' hA hdv k hk
    refine ⟨?_, by simpa using hdv⟩
    have hsum : (y : ℤ) + y' = 2 * (N / 2 : ℕ) ∨ ((y : ℤ) + y' = 0 ∧ N % 2 = 0) := by
      obtain ⟨u, hu⟩ := hdv
      have h1 : u < 1 := by
        by_contra h1
        nlinarith [show (1 : ℤ) ≤ u by omega, show (0 : ℤ) < N by omega, show (2 : ℤ) * (N / 2 : ℕ) ≥ N - 1 by omega]
      have h2 : -1 ≤ u := by
        by_contra h2
        nlinarith [show u ≤ -2 by omega, show (0 : ℤ) < N by omega, show (2 : ℤ) * (N / 2 : ℕ) ≤ N by omega]
      have h3 : u = 0 ∨ u = -1 := by omega
      rcases h3 with rfl | rfl
      · left; omega
      · right; omega
    rcases hA with ho | ⟨h1, h2⟩
    · omega
    · have hk1 : (-(y : ℤ)) < k := by
        have : (-(y : ℝ)) < k := by linarith [(abs_lt.mp hk).1]
        exact_mod_cast this
      have hk2 : k < (N : ℤ) - y := by
        have : (k : ℝ) < (N : ℝ) - y := by linarith [(abs_lt.mp hk).2]
        exact_mod_cast this
      have hy0 : (0 : ℤ) < y := by
        have : (0 : ℝ) < y := by linarith
        exact_mod_cast this
      omega
  refine ⟨fun z hz z' hz' hzz y x => ?_, fun z hz y hy y' hy' x hA hdv => ?_, fun z hz y x hx x' hx' hA hdv => ?_⟩
  · unfold throughPinhole
    congr 1
    refine Finset.sum_congr rfl fun u _ => ?_
    unfold pixelOr0
    by_cases h : 0 ≤ (y : ℤ) + u.1 ∧ (y : ℤ) + u.1 < N ∧ 0 ≤ (x : ℤ) + u.2 ∧ (x : ℤ) + u.2 < N
    · rw [if_pos h, if_pos h]
      exact hd.z z hz z' hz' hzz _ (by omega) _ (by omega)
    · rw [if_neg h, if_neg h]
  · unfold throughPinhole
    congr 1
    refine Finset.sum_bij' (fun u _ => (-u.1, u.2)) (fun u _ => (-u.1, u.2)) (fun u hu => (hneg u hu).1) (fun u hu => (hneg u hu).1)
      (fun u _ => by simp) (fun u _ => by simp) fun u hu => ?_
    obtain ⟨c1, c2⟩ := coord y hy y' hy' hA hdv (-u.1) (by push_cast; rw [abs_neg]; exact (habs u hu).1)
    rw [sub_neg_eq_add] at c1 c2
    unfold pixelOr0
    by_cases h : 0 ≤ (y : ℤ) + -u.1 ∧ (y : ℤ) + -u.1 < N ∧ 0 ≤ (x : ℤ) + u.2 ∧ (x : ℤ) + u.2 < N
    · have h' := c1.mpr ⟨h.1, h.2.1⟩
      rw [if_pos h, if_pos ⟨h'.1, h'.2, h.2.2⟩]
      refine hd.y z hz _ (by omega) _ (by omega) _ (by omega) trivial ?_
      rw [Int.toNat_of_nonneg h.1, Int.toNat_of_nonneg h'.1]; exact c2
    · rw [if_neg h, if_neg]
      rintro ⟨a1, a2, a3⟩
      have h' := c1.mp ⟨a1, a2⟩
      exact h ⟨h'.1, h'.2, a3⟩
  · unfold throughPinhole
    congr 1
    refine Finset.sum_bij' (fun u _ => (u.1, -u.2)) (fun u _ => (u.1, -u.2)) (fun u hu => (hneg u hu).2) (fun u hu => (hneg u hu).2)
      (fun u _ => by simp) (fun u _ => by simp) fun u hu => ?_
    obtain ⟨c1, c2⟩ := coord x hx x' hx' hA hdv (-u.2) (by push_cast; rw [abs_neg]; exact (habs u hu).2)
    rw [sub_neg_eq_add] at c1 c2
    unfold pixelOr0
    by_cases h : 0 ≤ (y : ℤ) + u.1 ∧ (y : ℤ) + u.1 < N ∧ 0 ≤ (x : ℤ) + -u.2 ∧ (x : ℤ) + -u.2 < N
    · have h' := c1.mpr ⟨h.2.2.1, h.2.2.2⟩
      rw [if_pos h, if_pos ⟨h.1, h.2.1, h'.1, h'.2⟩]
      refine hd.x z hz _ (by omega) _ (by omega) _ (by omega) trivial ?_
      rw [Int.toNat_of_nonneg h.2.2.1, Int.toNat_of_nonneg h'.1]; exact c2
    · rw [if_neg h, if_neg]
      rintro ⟨a0, a3, a1, a2⟩
      have h' := c1.mp ⟨a1, a2⟩
      exact h ⟨a0, a3, h'.1, h'.2⟩

theorem pinhole_exchange {R : ℝ} (hR : 0 < R) {d : Arr ℝ} {Z N : ℕ} (hd : ExchangeSymmetric d Z N) {z : ℕ} (hz : z < Z) (y x : ℕ) :
    throughPinhole R d N N z x y = throughPinhole R d N N z y x := by
  have hsw : ∀ u : ℤ × ℤ, u ∈ disk R → u.swap ∈ disk R := by
    intro u hu
    rw [mem_disk hR] at hu ⊢
    simpa [add_comm] using hu
  unfold throughPinhole
  congr 1
  refine Finset.sum_bij' (fun u _ => u.swap) (fun u _ => u.swap) hsw hsw (fun u _ => by simp) (fun u _ => by simp) fun u _ => ?_
  unfold pixelOr0
  simp only [Prod.fst_swap, Prod.snd_swap]
  by_cases h : 0 ≤ (x : ℤ) + u.1 ∧ (x : ℤ) + u.1 < N ∧ 0 ≤ (y : ℤ) + u.2 ∧ (y : ℤ) + u.2 < N
  · rw [if_pos h, if_pos ⟨h.2.2.1, h.2.2.2, h.1, h.2.1⟩]
    exact hd z hz _ (by omega) _ (by omega)
  · rw [if_neg h, if_neg]
    rintro ⟨a1, a2, a3, a4⟩
    exact h ⟨a3, a4, a1, a2⟩

/-- C120: the PSF of a confocal microscope, `ρ` the radius of the pinhole in camera pixels: laterally the pinhole, which sees nothing beyond the edge of the
grid, spoils the mirror symmetry of a grid of even size near the edge only. -/
theorem C120_confocal (a : MicroArgs) (o n nz : ℕ) (q w na i z : ℚ) (ha : OrdinaryArgs a o n nz q w na i z) (wlExc pinhole : PyVal) (w' ph : ℚ)
    (ha' : OrdinaryArgs { a with wl := wlExc } o n nz q w' na i z) (hph : Denotes pinhole ph) (ρ : ℚ) (hρ : ρ = ph * (61 / 50 * w / na / q) / 2)
    (m : Micro) (hm : Micro.newConfocal a wlExc pinhole = .ok m) (p : Arr ℝ) (hp : (Micro.getPSF m).1 = .ok p) :
    p.shape = [nz, n, n] ∧
    MirrorSymmetric p nz n (fun y => n % 2 = 1 ∨ ρ * o ≤ 3 / 2 ∨ (ρ + 1 / 2 ≤ y ∧ ρ + 1 / 2 ≤ n - y)) ∧
      (a.kw.vecCorr.getD (.str "none") = .str "none" ∨ a.kw.vecCorr.getD (.str "none") = .str "total" → ExchangeSymmetric p nz n) := by
  obtain ⟨h, h2, v, cd, kv, kc, hvz, e1, e2, e3, e4, e5, e6, hO, hO', g1, g2⟩ := confocal_setup ha ha'.hwl hm
  have ho := ha.odd
  have ho0 : 0 < o := by omega
  have hoq : (0 : ℚ) < o := by exact_mod_cast ho0
  have hqo : (0 : ℚ) < q / o := div_pos ha.q_pos hoq
  have hlen : ((List.range nz).map (plane nz z)).length = nz := by simp
  have hzne : (List.range nz).map (plane nz z) ≠ [] := by simp; exact ha.nz_pos.ne'
  have hNo : 0 < n * o := Nat.mul_pos ha.n_pos ho0
  obtain ⟨d, hd, hds, -⟩ := hanser_total_pos ⟨h.params, none⟩ rfl hO ha.hw ha.hna0 ha.hi hqo.ne' hNo hzne hvz
  obtain ⟨x, hx, hxs, -⟩ := hanser_total_pos ⟨h2.params, none⟩ rfl hO' ha'.hw ha.hna0 ha.hi hqo.ne' hNo hzne hvz
  rw [hlen] at hds hxs
  obtain ⟨c, k1, k2, k3⟩ := C58_confocal m _ _ _ e2 d x (g1.trans hd) (g2.trans hx) nz (n * o) (n * o) hds hxs w na (q / o) ph (ρ * o)
    (by rw [e1]; exact hO.wl) (by rw [e1]; exact hO.na) (by rw [e1]; exact hO.res) hph ha.hna0.ne' hqo.ne'
    (by rw [hρ]; field_simp)
  obtain ⟨hps, hpget⟩ := psf_of_model ho e3 e4 e5 k1 k2 hp
  obtain ⟨d1, d2⟩ := ideal_symmetric (ordinary_ideal ha hO) hd (fun _ => True)
  obtain ⟨x1, x2⟩ := ideal_symmetric (ordinary_ideal (h := h2) ha' hO') hx (fun _ => True)
  obtain ⟨t1, t2⟩ := camera_symmetric ho ha.n_pos hpget
    (fun y => n * o % 2 = 1 ∨ ρ * o ≤ 3 / 2 ∨ (((ρ * o : ℚ) : ℝ) ≤ y ∧ ((ρ * o : ℚ) : ℝ) ≤ (n * o : ℕ) - y))
    (fun y => n % 2 = 1 ∨ ρ * o ≤ 3 / 2 ∨ (ρ + 1 / 2 ≤ y ∧ ρ + 1 / 2 ≤ n - y)) (by
      intro y hy hA k hk
      rcases hA with h1 | h1 | ⟨h1, h2⟩
      · left; rw [Nat.mul_mod, h1, ho]
      · exact Or.inr (Or.inl h1)
      · by_cases hR : ρ * o ≤ 3 / 2
        · exact Or.inr (Or.inl hR)
        by_cases hn2 : n % 2 = 1
        · left; rw [Nat.mul_mod, hn2, ho]
        refine Or.inr (Or.inr ?_)
        push Not at hR
        have en : n * o / 2 = n / 2 * o := by
          obtain ⟨u, rfl⟩ : ∃ u, n = 2 * u := ⟨n / 2, by omega⟩
          rw [mul_assoc, Nat.mul_div_cancel_left _ (by norm_num), Nat.mul_div_cancel_left _ (by norm_num)]
        have ev : ((n * o / 2 : ℕ) : ℤ) + ((y : ℤ) - (n / 2 : ℕ)) * o + ((k : ℤ) - (o / 2 : ℕ)) = y * o + k - (o / 2 : ℕ) := by
          rw [en, Nat.cast_mul]; ring
        have m1 : ρ * o + 1 / 2 * o ≤ y * o := by nlinarith
        have m2 : ρ * o + 1 / 2 * o ≤ (n - y) * o := by nlinarith
        have m3 : (o : ℚ) = 2 * (o / 2 : ℕ) + 1 := by exact_mod_cast (by omega : o = 2 * (o / 2) + 1)
        have m4 : (k : ℚ) + 1 ≤ o := by exact_mod_cast hk
        have m5 : (0 : ℚ) ≤ k := by positivity
        have r1 : ρ * o ≤ y * o + k - (o / 2 : ℕ) := by linarith
        have r2 : ρ * o ≤ n * o - (y * o + k - (o / 2 : ℕ)) := by linarith
        have i1 : (0 : ℤ) ≤ y * o + k - (o / 2 : ℕ) := by
          have : (0 : ℚ) ≤ y * o + k - (o / 2 : ℕ) := by linarith
          exact_mod_cast this
        have i2 : ((y : ℤ) * o + k - (o / 2 : ℕ)) < (n * o : ℕ) := by
          have : (y : ℚ) * o + k - (o / 2 : ℕ) < n * o := by linarith
          exact_mod_cast this
        have ef : ((finePixel o n y k : ℕ) : ℤ) = y * o + k - (o / 2 : ℕ) := by
          rw [finePixel, ev, cyc, Int.emod_eq_of_lt i1 i2, Int.toNat_of_nonneg i1]
        have ef' : ((finePixel o n y k : ℕ) : ℚ) = y * o + k - (o / 2 : ℕ) := by exact_mod_cast ef
        rw [← ef'] at r1 r2
        exact ⟨by exact_mod_cast r1, by exact_mod_cast r2⟩)
  have hpos : 3 / 2 < ρ * o → (0 : ℝ) < ((ρ * o : ℚ) : ℝ) := fun h => by exact_mod_cast lt_trans (by norm_num) h
  refine ⟨hps, t1 ⟨fun z hz z' hz' hzz y hy k hk => ?_, fun z hz y hy y' hy' k hk hA hd => ?_, fun z hz y hy k hk k' hk' hA hd => ?_⟩,
    fun hv => t2 fun z hz y hy k hk => ?_⟩
  · rw [k3 z' hz' y hy k hk, k3 z hz y hy k hk, x1.z z hz z' hz' hzz y hy k hk]
    congr 1
    by_cases hR : 3 / 2 < ρ * o
    · rw [if_pos hR, if_pos hR]; exact (pinhole_symmetric (hpos hR) d1).1 z hz z' hz' hzz y k
    · rw [if_neg hR, if_neg hR]; exact d1.z z hz z' hz' hzz y hy k hk
  · rw [k3 z hz y' hy' k hk, k3 z hz y hy k hk, x1.y z hz y hy y' hy' k hk trivial hd]
    congr 1
    by_cases hR : 3 / 2 < ρ * o
    · rw [if_pos hR, if_pos hR]
      refine (pinhole_symmetric (hpos hR) d1).2.1 z hz y hy y' hy' k ?_ hd
      rcases hA with h1 | h1 | h1
      · exact Or.inl h1
      · exact absurd hR (not_lt.mpr h1)
      · exact Or.inr h1
    · rw [if_neg hR, if_neg hR]; exact d1.y z hz y hy y' hy' k hk trivial hd
  · rw [k3 z hz y hy k' hk', k3 z hz y hy k hk, x1.x z hz y hy k hk k' hk' trivial hd]
    congr 1
    by_cases hR : 3 / 2 < ρ * o
    · rw [if_pos hR, if_pos hR]
      refine (pinhole_symmetric (hpos hR) d1).2.2 z hz y k hk k' hk' ?_ hd
      rcases hA with h1 | h1 | h1
      · exact Or.inl h1
      · exact absurd hR (not_lt.mpr h1)
      · exact Or.inr h1
    · rw [if_neg hR, if_neg hR]; exact d1.x z hz y hy k hk k' hk' trivial hd
  · have ev := keyword_exchange kv hv
    rw [k3 z hz k hk y hy, k3 z hz y hy k hk, x2 ev z hz y hy k hk]
    congr 1
    by_cases hR : 3 / 2 < ρ * o
    · rw [if_pos hR, if_pos hR]; exact pinhole_exchange (hpos hR) (d2 ev) hz y k
    · rw [if_neg hR, if_neg hR]; exact d2 ev z hz y hy k hk

/-- Non-vacuity: 64 x 64 camera pixels of 130 nm, oversampled 3 times: rows 31 and 33, columns 30 and 34, planes 30 and 34 are mirror images. -/
example : ∃ m p, Micro.newWidefield demoMicroArgs = .ok m ∧ (Micro.getPSF m).1 = .ok p ∧ p.get [34, 33, 34] = p.get [30, 31, 30] := by
  have ha : OrdinaryArgs demoMicroArgs 3 64 64 130 520 (17/20) 1 130 := by exact_mod_cast demoArgs_ordinary 520 (by norm_num)
  obtain ⟨m, p, hm, hp, -, hs, -⟩ := C120_widefield _ _ _ _ _ _ _ _ _ ha
  refine ⟨m, p, hm, hp, ?_⟩
  rw [hs.z 30 (by norm_num) 34 (by norm_num) (by norm_num) 33 (by norm_num) 34 (by norm_num),
    hs.y 30 (by norm_num) 31 (by norm_num) 33 (by norm_num) 34 (by norm_num) trivial (by norm_num),
    hs.x 30 (by norm_num) 31 (by norm_num) 30 (by norm_num) 34 (by norm_num) trivial (by norm_num)]

/-- Non-vacuity: a pinhole of one Airy unit (2.87 camera pixels). -/
example : ∃ m, Micro.newConfocal demoMicroArgs (.int 488) (.int 1) = .ok m ∧ ∀ p, (Micro.getPSF m).1 = .ok p →
    p.get [34, 33, 34] = p.get [30, 31, 30] ∧ p.get [5, 4, 9] = p.get [5, 60, 9] := by
  have ha : OrdinaryArgs demoMicroArgs 3 64 64 130 520 (17/20) 1 130 := by exact_mod_cast demoArgs_ordinary 520 (by norm_num)
  have ha' : OrdinaryArgs { demoMicroArgs with wl := .int 488 } 3 64 64 130 488 (17/20) 1 130 := by exact_mod_cast demoArgs_ordinary 488 (by norm_num)
  obtain ⟨m, hm⟩ := confocal_exists ha (wlExc := .int 488) (pinhole := .int 1) (p := some (.int 1)) (p' := some (.int 488)) rfl rfl
  refine ⟨m, hm, fun p hp => ?_⟩
  obtain ⟨-, hs, -⟩ := C120_confocal _ _ _ _ _ _ _ _ _ ha (.int 488) (.int 1) 488 1 ha' (by norm_num [Denotes, PyVal.num?]) _ rfl m hm p hp
  refine ⟨?_, ?_⟩
  · rw [hs.z 30 (by norm_num) 34 (by norm_num) (by norm_num) 33 (by norm_num) 34 (by norm_num),
      hs.y 30 (by norm_num) 31 (by norm_num) 33 (by norm_num) 34 (by norm_num) (by right; right; norm_num) (by norm_num),
      hs.x 30 (by norm_num) 31 (by norm_num) 30 (by norm_num) 34 (by norm_num) (by right; right; norm_num) (by norm_num)]
  · exact hs.y 5 (by norm_num) 60 (by norm_num) 4 (by norm_num) 9 (by norm_num) (by right; right; norm_num) (by norm_num)

end PyOTF
