import Verif.MapSpec
import Verif.BTree.Erase

/-!
# Histories of operations on a tree
-/

set_option linter.unusedSectionVars false

namespace Verif.BTree

open Verif Assoc MapSpec

variable {K V L : Type} [LinearOrder K] {o : Ops K V L} {W : Laws o} {lm bm rm : Nat}

/-- Run one operation; `insert` returns nothing, shown as `true`. -/
def exec (o : Ops K V L) (s : State K L) : Op K V → Res (Bool × State K L)
  | .insert k v => do
    let s ← insert o s k v
    pure (true, s)
  | .erase k => erase o s k

/-- Run a history; the results of all operations and the last state. -/
def execAll (o : Ops K V L) : State K L → List (Op K V) → Res (List Bool × State K L)
  | s, [] => .ok ([], s)
  | s, op :: ops => do
    let r ← exec o s op
    let rs ← execAll o r.2 ops
    pure (r.1 :: rs.1, rs.2)

/-- The tree `s` stores the map `m`. -/
def Stores (W : Laws o) (s : State K L) (m : K → Option V) : Prop := ∀ k, find k (cont W s) = m k

theorem Stores.insert {s s' : State K L} {m : K → Option V} (h : Stores W s m) {k : K} {v : V}
    (e : cont W s' = upsert k v (cont W s)) : Stores W s' (step m (.insert k v)) := by
  intro x
  rw [e, find_upsert]
  simp only [step]
  by_cases hx : x = k
  · simp [hx]
  · rw [if_neg hx, if_neg hx]; exact h x

theorem Stores.erase {s s' : State K L} {m : K → Option V} (h : Stores W s m) {k : K}
    (e : cont W s' = remove k (cont W s)) : Stores W s' (step m (.erase k)) := by
  intro x
  rw [e, find_remove]
  simp only [step]
  by_cases hx : x = k
  · simp [hx]
  · rw [if_neg hx, if_neg hx]; exact h x

theorem init_stores (W : Laws o) : Stores W (init o : State K L) empty := by
  intro k
  rw [(init_good W 0 0 0).2]; rfl

theorem Stores.lookup {s : State K L} {m : K → Option V} (g : Good W lm bm rm s) (h : Stores W s m) (k : K) :
    lookup o s k = .ok (m k) := by
  rw [lookup_good g, h k]

theorem Stores.lists {s : State K L} {m : K → Option V} (g : Good W lm bm rm s) (h : Stores W s m) :
    Lists m (cont W s) :=
  ⟨g.sorted, fun k v => by rw [mem_iff_find g.sorted, h k]⟩

theorem Stores.listsRange {s : State K L} {m : K → Option V} (g : Good W lm bm rm s) (h : Stores W s m)
    (lo hi : K) : ListsRange m lo hi ((cont W s).filter (fun e => lo ≤ e.1 ∧ e.1 ≤ hi)) := by
  refine ⟨List.Pairwise.filter _ g.sorted, fun k v => ?_⟩
  rw [List.mem_filter, mem_iff_find g.sorted, h k]
  simp only [decide_eq_true_eq]
  tauto

/-- Only admissible keys are inserted. -/
def Adm (W : Laws o) (ops : List (Op K V)) : Prop := ∀ k v, Op.insert k v ∈ ops → W.adm k

/-- Histories of inserts. -/
theorem inserts_good_head (hlm : lm ≤ W.lmin) (hbm : bm ≤ (o.N - 1) / 2) (hN : 2 ≤ o.N) (hrm : rm ≤ 1) :
    ∀ (ops : List (Op K V)) (s : State K L) (m : K → Option V), Good W lm bm rm s → Stores W s m →
    InsertsOnly ops → Adm W ops →
    ∃ bs s', execAll o s ops = .ok (bs, s') ∧ Good W lm bm rm s' ∧ Stores W s' (run m ops) ∧
      (ids s'.depth s'.root).head? = (ids s.depth s.root).head?
  | [], s, m, g, h, _, _ => ⟨[], s, rfl, g, h, rfl⟩
  | op :: ops, s, m, g, h, ho, ha => by
    obtain ⟨k, v, rfl⟩ := ho op (by simp)
    obtain ⟨s1, e1, g1, c1, d1⟩ := insert_good_head hlm hbm hN hrm g k v (ha k v (by simp))
    obtain ⟨bs, s', e, g', h', d'⟩ := inserts_good_head hlm hbm hN hrm ops s1 _ g1 (h.insert c1)
      (fun x hx => ho x (List.mem_cons_of_mem _ hx)) (fun k v hx => ha k v (List.mem_cons_of_mem _ hx))
    refine ⟨true :: bs, s', ?_, g', h', d'.trans d1⟩
    rw [execAll, exec, e1, Res.ok_bind, Res.pure_eq, Res.ok_bind, e, Res.ok_bind]; rfl

theorem inserts_good (hlm : lm ≤ W.lmin) (hbm : bm ≤ (o.N - 1) / 2) (hN : 2 ≤ o.N) (hrm : rm ≤ 1)
    (ops : List (Op K V)) (s : State K L) (m : K → Option V) (g : Good W lm bm rm s) (h : Stores W s m)
    (ho : InsertsOnly ops) (ha : Adm W ops) :
    ∃ bs s', execAll o s ops = .ok (bs, s') ∧ Good W lm bm rm s' ∧ Stores W s' (run m ops) := by
  obtain ⟨bs, s', e, g', h', _⟩ := inserts_good_head hlm hbm hN hrm ops s m g h ho ha
  exact ⟨bs, s', e, g', h'⟩

/-- The leaf found for a key that is present contains it. -/
theorem leaf_of_present {s : State K L} (g : Good W lm bm rm s) {k : K} (hf : find k (cont W s) ≠ none)
    {id : Nat} {l : L} (e : findLeaf o s.depth s.root k = .ok id) (hl : s.heap.data id = some l) :
    find k (W.abs l) ≠ none := by
  obtain ⟨id', l', pre, post, m, m', e', hids, hl', hok, _, _, hk, _, _, h1, h2⟩ :=
    findLeaf_spec k s.depth (rootMin rm s.depth) s.root ⊥ ⊤ g.bt (inR_univ k)
  rw [e] at e'
  injection e' with e'
  subst e'
  rw [hl] at hl'
  injection hl' with hl'
  subst hl'
  have hent : ent W s.heap id = W.abs l := by simp [ent, hl]
  rw [cont, hids, content_append, content_cons, find_append_right, find_append_left, hent] at hf
  · exact hf
  · intro e he hk'
    have := lt_of_lt_of_le hk.2 (h2 e he)
    rw [hk'] at this; exact absurd this (lt_irrefl _)
  · intro e he hk'
    have := lt_of_lt_of_le (h1 e he) hk.1
    rw [hk'] at this; exact absurd this (lt_irrefl _)

/-- One update by a history that erases present keys only. -/
theorem histories_good_head (E : EraseLaws W) (hE : ∀ l lo hi, E.Q l lo hi)
    (hpre : ∀ l k, W.ok l → find k (W.abs l) ≠ none → E.pre l k) {q : Nat}
    (hN : o.N = 2 * q) (hq : 3 ≤ q) (hM : 2 ≤ o.M) (hlm : o.M / 2 ≤ W.lmin) :
    ∀ (ops : List (Op K V)) (s : State K L) (m : K → Option V), Good W (o.M / 2) (q - 1) 1 s → Stores W s m →
    ErasesPresent m ops → Adm W ops →
    ∃ s', execAll o s ops = .ok (outs m ops, s') ∧ Good W (o.M / 2) (q - 1) 1 s' ∧ Stores W s' (run m ops) ∧
      (ids s'.depth s'.root).head? = (ids s.depth s.root).head?
  | [], s, m, g, h, _, _ => ⟨s, rfl, g, h, rfl⟩
  | .insert k v :: ops, s, m, g, h, ho, ha => by
    obtain ⟨s1, e1, g1, c1, d1⟩ := insert_good_head hlm (by omega) (by omega) (le_refl 1) g k v (ha k v (by simp))
    obtain ⟨s', e, g', h', d'⟩ := histories_good_head E hE hpre hN hq hM hlm ops s1 _ g1 (h.insert c1) ho
      (fun k v hx => ha k v (List.mem_cons_of_mem _ hx))
    refine ⟨s', ?_, g', h', d'.trans d1⟩
    rw [execAll, exec, e1, Res.ok_bind, Res.pure_eq, Res.ok_bind, e, Res.ok_bind]; rfl
  | .erase k :: ops, s, m, g, h, ho, ha => by
    have hf : find k (cont W s) ≠ none := by rw [h k]; exact ho.1
    obtain ⟨s1, e1, g1, c1, d1⟩ := erase_good_head E hN hq hM g (g.bt.frame (fun l a b _ => hE l a b) (fun _ _ => rfl)) k
      (fun id l e hl => by
        obtain ⟨id', l', pre, post, _, _, e', hids, hl', hok, _⟩ :=
          findLeaf_spec k s.depth (rootMin 1 s.depth) s.root ⊥ ⊤ g.bt (inR_univ k)
        rw [e] at e'
        injection e' with e'
        subst e'
        rw [hl] at hl'
        injection hl' with hl'
        subst hl'
        exact hpre l k hok (leaf_of_present g hf e hl))
    obtain ⟨s', e, g', h', d'⟩ := histories_good_head E hE hpre hN hq hM hlm ops s1 _ g1 (h.erase c1) ho.2
      (fun k v hx => ha k v (List.mem_cons_of_mem _ hx))
    refine ⟨s', ?_, g', h', d'.trans d1⟩
    rw [execAll, exec, e1, Res.ok_bind, e, Res.ok_bind, h k]; rfl

theorem histories_good (E : EraseLaws W) (hE : ∀ l lo hi, E.Q l lo hi)
    (hpre : ∀ l k, W.ok l → find k (W.abs l) ≠ none → E.pre l k) {q : Nat}
    (hN : o.N = 2 * q) (hq : 3 ≤ q) (hM : 2 ≤ o.M) (hlm : o.M / 2 ≤ W.lmin)
    (ops : List (Op K V)) (s : State K L) (m : K → Option V) (g : Good W (o.M / 2) (q - 1) 1 s) (h : Stores W s m)
    (ho : ErasesPresent m ops) (ha : Adm W ops) :
    ∃ s', execAll o s ops = .ok (outs m ops, s') ∧ Good W (o.M / 2) (q - 1) 1 s' ∧ Stores W s' (run m ops) := by
  obtain ⟨s', e, g', h', _⟩ := histories_good_head E hE hpre hN hq hM hlm ops s m g h ho ha
  exact ⟨s', e, g', h'⟩

end Verif.BTree
