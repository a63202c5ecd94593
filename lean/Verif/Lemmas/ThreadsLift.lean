import Verif.Lemmas.Threads
import Verif.Model.MicroThreads

/-!
# A program on a part of the memory keeps its properties
-/

namespace PyOTF

namespace Prog

variable {σ τ L M α : Type} {get : τ → σ} {put : σ → τ → τ} {name : L → M}

theorem Safe.lift {Inv : σ → Prop} {le : σ → σ → Prop} {Inv' : τ → Prop} {le' : τ → τ → Prop} {Q : σ → α → Prop}
    (hgp : ∀ a t, get (put a t) = a) (hI : ∀ t, Inv' t → Inv (get t)) (hle : ∀ t u, le' t u → le (get t) (get u))
    (hput : ∀ a t, Inv' t → Inv a → le (get t) a → Inv' (put a t) ∧ le' t (put a t))
    {p : Prog σ L α} {t0 : τ} (h : p.Safe Inv le Q (get t0)) :
    (p.lift get put name).Safe Inv' le' (fun t a => Q (get t) a) t0 := by
  induction p generalizing t0 with
  | ret a => exact fun t ht hIt => h (get t) (hle _ _ ht) (hI _ hIt)
  | act st k ih =>
    intro t ht hIt
    obtain ⟨h1, h2, h3⟩ := h (get t) (hle _ _ ht) (hI _ hIt)
    obtain ⟨h4, h5⟩ := hput _ t hIt h1 h2
    refine ⟨h4, h5, ih (get t) ?_⟩
    rw [hgp]; exact h3
  | lock l k ih => exact ih h
  | unlock l k ih => exact ih h

theorem DiscTo.lift {rank : L → ℕ} {rank' : M → ℕ} (hr : ∀ l l', rank l < rank l' → rank' (name l) < rank' (name l'))
    {p : Prog σ L α} {fin held : List L} (h : p.DiscTo rank fin held) (ext : List M)
    (he : ∀ l, ∀ m ∈ ext, rank' (name l) < rank' m) :
    (p.lift get put name).DiscTo rank' (fin.map name ++ ext) (held.map name ++ ext) := by
  induction p generalizing held with
  | ret a => rw [show held = fin from h]; rfl
  | act st k ih => exact fun t => ih (get t) (h (get t))
  | lock l k ih =>
    refine ⟨fun m hm => ?_, ih h.2⟩
    rcases List.mem_append.mp hm with hm | hm
    · obtain ⟨l', h1, rfl⟩ := List.mem_map.mp hm
      exact hr _ _ (h.1 l' h1)
    · exact he l m hm
  | unlock l k ih =>
    obtain ⟨rest, rfl, h2⟩ := h
    exact ⟨rest.map name ++ ext, rfl, ih h2⟩

theorem Within.lift {p : Prog σ L α} {n : ℕ} (h : p.Within n) : (p.lift get put name).Within n := by
  induction p generalizing n with
  | ret a => trivial
  | act st k ih =>
    obtain ⟨m, hm, h⟩ := h
    exact ⟨m, hm, fun t => ih (get t) (h (get t))⟩
  | lock l k ih =>
    obtain ⟨m, hm, h⟩ := h
    exact ⟨m, hm, ih h⟩
  | unlock l k ih =>
    obtain ⟨m, hm, h⟩ := h
    exact ⟨m, hm, ih h⟩

theorem alone_lift (p : Prog σ L α) (hgp : ∀ a t, get (put a t) = a) (hpp : ∀ a b t, put a (put b t) = put a t)
    (hpg : ∀ t, put (get t) t = t) (t : τ) :
    (p.lift get put name).alone t = ((p.alone (get t)).1, put (p.alone (get t)).2 t) := by
  induction p generalizing t with
  | ret a => simp only [Prog.lift, alone, hpg]
  | act st k ih => simp only [Prog.lift, alone, ih, hgp, hpp]
  | lock l k ih => exact ih t
  | unlock l k ih => exact ih t

end Prog

end PyOTF
