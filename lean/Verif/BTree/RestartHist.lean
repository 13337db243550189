import Verif.BTree.RestartErase
import Mathlib.Data.List.Sort

/-!
# Histories with restarts of the HPBPTree

A restart loses the branch nodes and calls `recover` (HPBPTree.hpp:339-361) on the leaf list.
-/

set_option linter.unusedSectionVars false
set_option linter.unusedSimpArgs false

namespace Verif.BTree

open Assoc MapSpec
open Verif.Slots hiding none

variable {K V L : Type} [LinearOrder K] {o : Ops K V L} {W : Laws o} {lm bm rm : Nat} {h : Heap L} {g : Nat} {k0 : K}

/-- A call: an update or a restart. -/
inductive RCall (K V : Type) where
  | upd (op : Op K V)
  | restart

/-- The updates of a history. -/
def updates : List (RCall K V) → List (Op K V)
  | [] => []
  | .upd op :: cs => op :: updates cs
  | .restart :: cs => updates cs

/-- Run a history with restarts (HPBPTree.hpp:339-361 for `.restart`); `leafList` is leaf 0, as in
the constructor (HPBPTree.hpp:248). -/
def runR (o : Ops K V L) : State K L → List (RCall K V) → Res (List Bool × State K L)
  | s, [] => .ok ([], s)
  | s, .upd op :: cs => do
    let r ← exec o s op
    let rs ← runR o r.2 cs
    pure (r.1 :: rs.1, rs.2)
  | s, .restart :: cs => do
    let s' ← recoverH o s.heap 0
    runR o s' cs

/-- The map `m` has fewer than `n` keys. -/
def Fewer (m : K → Option V) (n : Nat) : Prop := ∃ es, Lists m es ∧ es.length < n

/-- Histories a restarted tree can take: `b` is the map at the last restart if that restart found many keys. -/
def Allowed (n : Nat) : (K → Option V) → Option (K → Option V) → List (RCall K V) → Prop
  | _, _, [] => True
  | m, b, .upd (.insert k v) :: cs =>
    (∀ m0, b = some m0 → ∃ x, x ≤ k ∧ m0 x ≠ none) ∧ Allowed n (step m (.insert k v)) b cs
  | m, b, .upd (.erase k) :: cs => b = none ∧ m k ≠ none ∧ Allowed n (step m (.erase k)) none cs
  | m, _, .restart :: cs => (Fewer m n ∧ Allowed n m none cs) ∨ Allowed n m (some m) cs

/-- Only one list lists a map. -/
theorem lists_eq {m : K → Option V} {es fs : List (K × V)} (hl : Lists m es) (hsort : Sorted fs)
    (hm : ∀ k, find k fs = m k) : es = fs := by
  have : Std.Irrefl (fun (a b : K × V) => a.1 < b.1) := ⟨fun a => lt_irrefl _⟩
  have : Std.Antisymm (fun (a b : K × V) => a.1 < b.1) := ⟨fun a b h1 h2 => absurd h1 (lt_asymm h2)⟩
  refine List.Pairwise.eq_of_mem_iff hl.1 hsort (fun a => ?_)
  rw [show a = (a.1, a.2) from rfl, hl.2 a.1 a.2, ← hm a.1, ← mem_iff_find hsort]

theorem GB.content_sorted : ∀ {d : Nat} {n : BNode K (Tree K d)} {hi : Bd K} {is : List Nat},
    GB W lm h g k0 d n hi → ids (d + 1) n = g :: is → Sorted (content W h is) := by
  intro d
  induction d with
  | zero =>
    intro n hi is ⟨cs, ks, hr, ht⟩ hids
    rw [ids_rep hr, List.flatMap_cons] at hids
    have : cs.flatMap (ids (K := K) 0) = is := (List.cons.inj hids).2
    rw [← this]
    exact Tile.content_sorted (fun t lo hi hb => hb.content_sorted) ht
  | succ d ih =>
    intro n hi is hb hids
    obtain ⟨c, cs, ks, b, bs, hr, hbs, hc, ht⟩ := GB.succ_iff.1 hb
    obtain ⟨x, js, ej⟩ := hc.ids_eq
    rw [ids_rep hr, List.flatMap_cons, ej, List.cons_append] at hids
    have hin : x :: js ++ cs.flatMap (ids (d + 1)) = is := (List.cons.inj hids).2
    have hs := Tile.sorted (fun c a b hc => Bt.lt hc) ht
    rw [List.pairwise_cons] at hs
    rw [← hin, content_append, sorted_append]
    refine ⟨ih hc ej, Tile.content_sorted (fun t lo hi hb => hb.content_sorted) ht, fun y hy z hz => ?_⟩
    have h1 := (hc.bounds ej y hy).2
    have h2 := (Tile.bounds (lo := b) (hi := ⊤) ht (fun a ha => by
      rcases List.mem_cons.1 ha with ha | ha
      · exact ⟨ha.ge, le_top⟩
      · exact ⟨(hs.1 a ha).le, le_top⟩) z hz).1
    exact bk_lt.1 (lt_of_lt_of_le h1 h2)

/-- The two shapes of a tree with restarts, and what it stores. -/
inductive RInv (W : Laws o) (lm bm : Nat) (m : K → Option V) (b : Option (K → Option V)) (s : State K L) : Prop where
  | good (g : Good W lm bm 1 s) (hs : Stores W s m) (hd : (ids s.depth s.root).head? = some 0)
  | ghost (m0 : K → Option V) (hb : b = some m0) (k0 : K) (is : List Nat) (g : GState W lm k0 is s)
      (hs : ∀ k, find k (content W s.heap is) = m k) (hd : is.head? = some 0)
      (hk : ∀ x, m0 x ≠ none → k0 ≤ x)

theorem RInv.lookup_eq {m : K → Option V} {b : Option (K → Option V)} {s : State K L} (i : RInv W lm bm m b s) (k : K) :
    lookup o s k = .ok (m k) := by
  cases i with
  | good g hs hd => exact hs.lookup g k
  | ghost m0 hb k0 is g hs hd hk => rw [g.lookup_eq, hs]

/-- A restart of a list of leaves. -/
theorem restart_leaves (hN : 3 ≤ o.N) {is : List Nat} {m : K → Option V} (w : Wf h is)
    (hsort : Sorted (content W h is)) (hd : is.head? = some 0) (hm : ∀ k, find k (content W h is) = m k)
    (hfirst : ∃ l, h.data 0 = some l ∧ W.ok l) (hready : is ≠ [0] → ∀ x ∈ is, LeafReady W lm h x) :
    ∃ s', recoverH o h 0 = .ok s' ∧ RInv W lm bm m (some m) s' ∧ (Fewer m (2 * lm) → RInv W lm bm m none s') := by
  obtain ⟨rest, rfl⟩ : ∃ rest, is = 0 :: rest := by
    cases is with
    | nil => simp at hd
    | cons a b => simp at hd; exact ⟨b, by rw [hd]⟩
  by_cases hr : rest = []
  · subst hr
    obtain ⟨l, hl, hok⟩ := hfirst
    have hn : h.next 0 = Option.none := w.chain.2 0 (by simp)
    have hg : Good W lm bm 1 (⟨0, 0, h⟩ : State K L) := by
      refine ⟨⟨bot_lt_top, l, hl, hok, by simp [rootMin], fun e _ => inR_univ e.1, trivial⟩, w⟩
    have hall : ∀ b, RInv W lm bm m b (⟨0, 0, h⟩ : State K L) := fun b => .good hg hm rfl
    refine ⟨⟨0, 0, h⟩, ?_, hall _, fun _ => hall _⟩
    unfold recoverH
    rw [Heap.get, hl, Res.ofOption_some, Res.ok_bind, hn]; rfl
  · have hready := hready (by simpa using hr)
    obtain ⟨s', e, es, er, hh, hc, hg, _⟩ := recoverH_ghost hN w hsort hr hready
    refine ⟨s', er, .ghost m rfl e.1 (0 :: rest) hg (by rw [hh]; exact hm) rfl ?_, ?_⟩
    · intro x hx
      rw [← hm x] at hx
      obtain ⟨v, hv⟩ := Option.ne_none_iff_exists'.1 hx
      have hmem := find_some_mem hv
      rw [hc] at hmem hsort
      rcases List.mem_cons.1 hmem with h1 | h1
      · rw [← h1]
      · exact (List.rel_of_pairwise_cons hsort h1).le
    · rintro ⟨ls, hl, hlen⟩
      exfalso
      obtain ⟨y, rest, rfl⟩ := List.exists_cons_of_ne_nil hr
      have heq : ls = content W h (0 :: y :: rest) := lists_eq hl hsort hm
      have h1 : ∀ x ∈ 0 :: y :: rest, lm ≤ (ent W h x).length := by
        intro x hx
        obtain ⟨l, _, _, hl, _, hln, _⟩ := hready x hx
        rw [ent, hl]; exact hln
      have h2 := h1 0 (by simp)
      have h3 := h1 y (by simp)
      rw [heq, content_cons, content_cons, List.length_append, List.length_append] at hlen
      omega

theorem RInv.restart (hN : 3 ≤ o.N) (h1 : 1 ≤ lm) (hmin : ∀ l e es, W.ok l → W.abs l = e :: es → o.minKey l = .ok e.1)
    {m : K → Option V} {b : Option (K → Option V)} {s : State K L} (i : RInv W lm bm m b s) :
    ∃ s', recoverH o s.heap 0 = .ok s' ∧ RInv W lm bm m (some m) s' ∧ (Fewer m (2 * lm) → RInv W lm bm m none s') := by
  cases i with
  | good g hs hd =>
    obtain ⟨rest, hids⟩ : ∃ rest, ids s.depth s.root = 0 :: rest := by
      cases hi : ids s.depth s.root with
      | nil => rw [hi] at hd; simp at hd
      | cons a b => rw [hi] at hd; simp at hd; exact ⟨b, by rw [hd]⟩
    obtain ⟨hfirst, hready⟩ := g.leaves h1 (fun l e es hl hab _ => hmin l e es hl hab) hids
    refine restart_leaves hN g.wf g.sorted hd hs hfirst (fun hne => ?_)
    rw [hids] at hne ⊢
    exact hready (by simpa using hne)
  | ghost m0 hb k0 is g hs hd hk =>
    obtain ⟨d, n, h, g, rfl, hb, hids, hhd, w⟩ := g.ex
    have hlf := hb.leaf hids
    refine restart_leaves hN w (hb.content_sorted hids) hd hs ?_ (fun _ x hx => ?_)
    · obtain ⟨l, hl, hok, _⟩ := hlf 0 (List.mem_of_mem_head? hd)
      exact ⟨l, hl, hok⟩
    · obtain ⟨l, hl, hok, hlen⟩ := hlf x hx
      cases hab : W.abs l with
      | nil => rw [hab] at hlen; simp at hlen; omega
      | cons e es => exact ⟨l, e, es, hl, hok, hlen, hab, hmin l e es hok hab⟩

/-- Histories with restarts. -/
theorem runR_spec (E : EraseLaws W) (hE : ∀ l lo hi, E.Q l lo hi)
    (hpre : ∀ l k, W.ok l → find k (W.abs l) ≠ none → E.pre l k) {q : Nat}
    (hN : o.N = 2 * q) (hq : 3 ≤ q) (hM : 2 ≤ o.M) (hlm : o.M / 2 ≤ W.lmin) (hadm : ∀ k, W.adm k) :
    ∀ (cs : List (RCall K V)) (s : State K L) (m : K → Option V) (b : Option (K → Option V)),
    RInv W (o.M / 2) (q - 1) m b s → Allowed (2 * (o.M / 2)) m b cs →
    ∃ s', runR o s cs = .ok (outs m (updates cs), s') ∧ ∀ k, lookup o s' k = .ok (run m (updates cs) k)
  | [], s, m, b, i, _ => ⟨s, rfl, fun k => i.lookup_eq k⟩
  | .upd (.insert k v) :: cs, s, m, b, i, ha => by
    obtain ⟨s1, e1, i1⟩ : ∃ s1, insert o s k v = .ok s1 ∧ RInv W (o.M / 2) (q - 1) (step m (.insert k v)) b s1 := by
      cases i with
      | good g hs hd =>
        obtain ⟨s1, e1, g1, c1, d1⟩ := insert_good_head hlm (by omega) (by omega) (le_refl 1) g k v (hadm k)
        exact ⟨s1, e1, .good g1 (hs.insert c1) (d1.trans hd)⟩
      | ghost m0 hb k0 is g hs hd hk =>
        obtain ⟨x, hx, hmx⟩ := ha.1 m0 hb
        obtain ⟨s1, is1, e1, g1, d1, c1⟩ := g.insert hlm (by omega) k v (hadm k) (le_trans (hk x hmx) hx)
        refine ⟨s1, e1, .ghost m0 hb k0 is1 g1 (fun y => ?_) (d1.trans hd) hk⟩
        rw [c1, find_upsert]
        simp only [step]
        by_cases hy : y = k
        · simp [hy]
        · rw [if_neg hy, if_neg hy]; exact hs y
    obtain ⟨s', e, hl⟩ := runR_spec E hE hpre hN hq hM hlm hadm cs s1 _ b i1 ha.2
    refine ⟨s', ?_, hl⟩
    rw [runR, exec, e1, Res.ok_bind, Res.pure_eq, Res.ok_bind, e, Res.ok_bind]; rfl
  | .upd (.erase k) :: cs, s, m, b, i, ha => by
    obtain ⟨hb0, hk, ha⟩ := ha
    cases i with
    | ghost m0 hb => rw [hb0] at hb; exact absurd hb (by simp)
    | good g hs hd =>
      obtain ⟨s1, e1, g1, h1, d1⟩ := histories_good_head E hE hpre hN hq hM hlm [.erase k] s m g hs ⟨hk, trivial⟩
        (fun k v hx => by simp at hx)
      obtain ⟨s', e, hl⟩ := runR_spec E hE hpre hN hq hM hlm hadm cs s1 _ none (.good g1 h1 (d1.trans hd)) ha
      refine ⟨s', ?_, hl⟩
      rw [execAll] at e1
      obtain ⟨r, er, e1⟩ := Res.bind_eq_ok.1 e1
      rw [execAll, Res.ok_bind] at e1
      have e1 := Res.ok.inj e1
      have h1 : r.1 = (m k).isSome := (List.cons.inj (Prod.mk.inj e1).1).1
      have h2 : r.2 = s1 := (Prod.mk.inj e1).2
      rw [runR, er, Res.ok_bind, h2, e, Res.ok_bind, h1]; rfl
  | .restart :: cs, s, m, b, i, ha => by
    obtain ⟨s1, e1, i1, i2⟩ := i.restart (by omega) (by omega) E.minKey
    rw [runR, e1, Res.ok_bind]
    rcases ha with ⟨hf, ha⟩ | ha
    · exact runR_spec E hE hpre hN hq hM hlm hadm cs s1 m none (i2 hf) ha
    · exact runR_spec E hE hpre hN hq hM hlm hadm cs s1 m (some m) i1 ha

/-- Erasing the smallest keys after a restart. -/
theorem restart_erases_ub (E : EraseLaws W) (hE : ∀ l lo hi, E.Q l lo hi)
    (hpre : ∀ l k, W.ok l → find k (W.abs l) ≠ none → E.pre l k) (hN : 3 ≤ o.N) (hM : 2 ≤ o.M)
    (hcap : ∀ l, W.ok l → (W.abs l).length ≤ o.M) {m : K → Option V} {s : State K L}
    (g : Good W (o.M / 2) bm 1 s) (hs : Stores W s m) (hd : (ids s.depth s.root).head? = some 0) (hp : NP s.heap 0)
    {es : List (K × V)} (hl : Lists m es) (hlen : o.M < es.length) :
    ∃ s', recoverH o s.heap 0 = .ok s' ∧
      execAll o s' ((es.take (o.M / 2 + 1)).map (fun e => (Op.erase e.1 : Op K V))) = .ub := by
  obtain ⟨rest, hids⟩ : ∃ rest, ids s.depth s.root = 0 :: rest := by
    cases hi : ids s.depth s.root with
    | nil => rw [hi] at hd; simp at hd
    | cons a b => rw [hi] at hd; simp at hd; exact ⟨b, by rw [hd]⟩
  obtain ⟨⟨l, hfirst, hok⟩, hready⟩ := g.leaves (by omega) (fun l e es hl hab _ => E.minKey l e es hl hab) hids
  have hsort := g.sorted
  have hw := g.wf
  have heq : es = cont W s := lists_eq hl hsort hs
  unfold cont at heq hsort
  rw [hids] at heq hsort hw
  have hc := hcap l hok
  have hr : rest ≠ [] := by
    rintro rfl
    rw [heq, content_cons, content_nil, List.append_nil, ent, hfirst] at hlen
    exact absurd hlen (not_lt.2 hc)
  obtain ⟨s', e, es', er, hh, _, hg, hln⟩ := recoverH_ghost hN hw hsort hr (hready hr)
  refine ⟨s', er, ?_⟩
  obtain ⟨d, n, h, g', rfl, hb, hids', hhd, w⟩ := hg.ex
  dsimp only at hh
  subst hh
  obtain ⟨d', n', h', hst, hn⟩ := hln
  have hg0 : g' = 0 := by simpa using hhd.symm
  subst hg0
  cases hst
  rw [heq]
  exact erase_smallest_ub E hE hpre (by omega) (by omega) (o.M / 2) d n s.heap rest l hb hids' w.nodup hn hp.prev hfirst
    (by omega)

/-- Updates that come to an end, followed by calls that do not. -/
theorem runR_append_ub : ∀ {ops : List (Op K V)} {s s' : State K L} {bs : List Bool} {cs : List (RCall K V)},
    execAll o s ops = .ok (bs, s') → runR o s' cs = .ub → runR o s (ops.map .upd ++ cs) = .ub
  | [], s, s', bs, cs, e, hu => by
    rw [execAll] at e
    cases e; exact hu
  | op :: ops, s, s', bs, cs, e, hu => by
    rw [execAll] at e
    obtain ⟨r, er, e⟩ := Res.bind_eq_ok.1 e
    obtain ⟨rs, ers, e⟩ := Res.bind_eq_ok.1 e
    have h2 := Res.ok.inj e
    rw [List.map_cons, List.cons_append, runR, er, Res.ok_bind]
    rw [runR_append_ub (bs := rs.1) (s' := s') (by rw [ers, ← (Prod.mk.inj h2).2]) hu]; rfl

theorem runR_upd_ub : ∀ {ops : List (Op K V)} {s : State K L}, execAll o s ops = .ub → runR o s (ops.map .upd) = .ub
  | [], s, e => by rw [execAll] at e; exact absurd e (by simp)
  | op :: ops, s, e => by
    rw [execAll] at e
    rw [List.map_cons, runR]
    cases er : exec o s op with
    | ok r =>
      rw [er, Res.ok_bind] at e
      rw [Res.ok_bind]
      cases ers : execAll o r.2 ops with
      | ub => rw [runR_upd_ub ers]; rfl
      | ok rs => rw [ers] at e; exact absurd e (by simp [Res.ok_bind, Res.pure_eq])
      | throws => rw [ers] at e; exact absurd e (by intro h; cases h)
      | assertFail => rw [ers] at e; exact absurd e (by intro h; cases h)
    | ub => rfl
    | throws => rw [er] at e; exact absurd e (by intro h; cases h)
    | assertFail => rw [er] at e; exact absurd e (by intro h; cases h)

end Verif.BTree
