import Verif.BTree.RecoverGhost

/-!
# The leftmost branch nodes of a restarted HPBPTree

`LN`: the leftmost branch nodes below the root have at least half of the keys, so that an erase which does not
remove a leaf does not rebuild them.
-/

set_option linter.unusedSectionVars false
set_option linter.unusedSimpArgs false

namespace Verif.BTree

open Assoc
open Verif.Slots hiding none

variable {K V L : Type} [LinearOrder K] {o : Ops K V L} {W : Laws o} {lm : Nat} {h : Heap L} {g : Nat} {k0 : K}

/-! ## The leftmost branch nodes -/

/-- The leftmost branch nodes below the root are at least half full. -/
def LN (N : Nat) : (d : Nat) → Bool → BNode K (Tree K d) → Prop
  | 0, top, n => top = true ∨ (N + 1) / 2 ≤ n.num
  | d + 1, top, n => (top = true ∨ (N + 1) / 2 ≤ n.num) ∧ ∃ c : BNode K (Tree K d), n.kids 0 = some c ∧ LN N d false c

theorem LN.map (f : Nat → Nat) {N : Nat} : ∀ {d : Nat} {top : Bool} {n : BNode K (Tree K d)}, LN N d top n →
    LN N d top (mapT f (d + 1) n) := by
  intro d
  induction d with
  | zero => intro top n hn; exact hn
  | succ d ih =>
    intro top n ⟨h1, c, h2, h3⟩
    exact ⟨h1, mapT f (d + 1) c, by show (n.kids 0).map _ = _; rw [h2]; rfl, ih h3⟩

theorem recIns_LN (hN : 3 ≤ o.N) {x : Nat} {l : L} {e : K × V} {es : List (K × V)}
    (hl : h.data x = some l) (hok : W.ok l) (hlen : lm ≤ (W.abs l).length) (hab : W.abs l = e :: es)
    (hmin : o.minKey l = .ok e.1) : ∀ (d : Nat) (top : Bool) (n : BNode K (Tree K d)) (lo : Bd K)
    (r : BNode K (Tree K d) × Option (K × BNode K (Tree K d))),
    RecT W lm h (d + 1) n lo → lo ≤ bk e.1 → (∀ y ∈ content W h (ids (d + 1) n), bk y.1 < bk e.1) →
    LN o.N d top n → recIns o false h x d n = .ok r →
    LN o.N d top r.1 ∧ (r.2 ≠ none → LN o.N d false r.1) := by
  intro d
  induction d with
  | zero =>
    intro top n lo r hrec hlo hlt hn er
    rw [recIns] at er
    obtain ⟨l, _, er⟩ := Res.bind_eq_ok.1 er
    obtain ⟨k, _, er⟩ := Res.bind_eq_ok.1 er
    by_cases hf : n.num = o.N
    · rw [if_pos hf] at er
      obtain ⟨y, _, er⟩ := Res.bind_eq_ok.1 er
      rw [← Res.ok.inj er]
      exact ⟨hn, fun _ => Or.inr (by simp only; omega)⟩
    · rw [if_neg hf] at er
      obtain ⟨m, em, er⟩ := Res.bind_eq_ok.1 er
      rw [← Res.ok.inj er]
      unfold pushEntry at em
      obtain ⟨keys, e1, em⟩ := Res.bind_eq_ok.1 em
      obtain ⟨kids, e2, em⟩ := Res.bind_eq_ok.1 em
      rw [← Res.ok.inj em]
      refine ⟨?_, fun hh => absurd rfl hh⟩
      rcases hn with hn | hn
      · exact Or.inl hn
      · exact Or.inr (by simp only; omega)
  | succ d ih =>
    intro top n lo r hrec hlo hlt ⟨hn1, c0, hn2, hn3⟩ er
    obtain ⟨cs, c, ks, b1, m, hr, hb, ht, hrc, hm⟩ := hrec
    have hids : ids (d + 2) n = cs.flatMap (ids (d + 1)) ++ ids (d + 1) c := by rw [ids_rep hr]; simp
    have hcl : ∀ y ∈ content W h (ids (d + 1) c), bk y.1 < bk e.1 := fun y hy => hlt y (by
      rw [hids, content_append]; simp [hy])
    have hmle : m ≤ bk e.1 := by
      rcases hm with rfl | ⟨y, hy, hm⟩
      · exact bot_le
      · exact (lt_of_le_of_lt hm (hcl y hy)).le
    obtain ⟨q, eq, hpost⟩ := recIns_spec false (by omega) hl hok hlen hab hmin d c m hrc hmle hcl
    have hlen' := hr.len
    simp only [List.length_append, List.length_singleton] at hlen'
    have hnum : n.num = cs.length := by rw [hr.num]; omega
    have hcap := hr.cap
    have hrd : rd (o.N + 1) n.kids n.num = .ok c := by
      rw [hnum]; exact rd_mid (r := []) hr.kids (by omega)
    rw [recIns, hrd, Res.ok_bind, eq, Res.ok_bind] at er
    obtain ⟨kids, ek, er⟩ := Res.bind_eq_ok.1 er
    have hkid : ∃ c1 : BNode K (Tree K d), kids 0 = some c1 ∧ LN o.N d false c1 := by
      rw [wr_ok _ _ (by omega)] at ek
      rw [← Res.ok.inj ek]
      by_cases h0 : n.num = 0
      · refine ⟨q.1, by simp only; rw [if_pos h0.symm], (ih false c m q hrc hmle hcl ?_ eq).1⟩
        unfold rd at hrd
        rw [if_pos (by omega), h0, hn2] at hrd
        have := Res.ok.inj hrd
        rw [← this]; exact hn3
      · exact ⟨c0, by simp only; rw [if_neg (fun hh => h0 hh.symm)]; exact hn2, hn3⟩
    obtain ⟨c1, hk1, hk2⟩ := hkid
    unfold RPost at hpost
    cases hq : q.2 with
    | none =>
      rw [hq] at er
      rw [← Res.ok.inj er]
      exact ⟨⟨hn1, c1, hk1, hk2⟩, fun hh => absurd rfl hh⟩
    | some sr =>
      rw [hq] at er hpost
      obtain ⟨h1, _, _, _⟩ := hpost
      dsimp only at er
      by_cases hf : n.num = o.N
      · rw [if_pos hf, if_neg (by simp)] at er
        obtain ⟨sp, es, er⟩ := Res.bind_eq_ok.1 er
        rw [← Res.ok.inj er]
        unfold splitPush at es
        obtain ⟨sp0, es0, es⟩ := Res.bind_eq_ok.1 es
        obtain ⟨a1, _, es⟩ := Res.bind_eq_ok.1 es
        obtain ⟨a2, _, es⟩ := Res.bind_eq_ok.1 es
        obtain ⟨a3, _, es⟩ := Res.bind_eq_ok.1 es
        rw [← Res.ok.inj es]
        unfold splitBranch at es0
        obtain ⟨km, ekm, es0⟩ := Res.bind_eq_ok.1 es0
        obtain ⟨b2, _, es0⟩ := Res.bind_eq_ok.1 es0
        obtain ⟨b3, _, es0⟩ := Res.bind_eq_ok.1 es0
        obtain ⟨b4, _, es0⟩ := Res.bind_eq_ok.1 es0
        obtain ⟨b5, _, es0⟩ := Res.bind_eq_ok.1 es0
        obtain ⟨b6, _, es0⟩ := Res.bind_eq_ok.1 es0
        rw [← Res.ok.inj es0]
        have htile : Tile (Bt W tt lm 0 h (d + 1) (occ lm 0 (d + 1))) (cs ++ [q.1]) (bnds lo ks (bk sr.1)) := by
          rw [bnds_eq hb]; exact tile_snoc ht h1
        obtain ⟨_, _, hkh⟩ := keys_sorted (fun c a b hc => Bt.lt hc) htile
        have hkm : km < sr.1 := by
          refine bk_lt.1 (hkh km ?_)
          have hlk : (o.N + 1) / 2 < ks.length := by
            have := hr.num; omega
          unfold rd at ekm
          rw [if_pos (by omega)] at ekm
          have hkk : n.keys ((o.N + 1) / 2) = ks[(o.N + 1) / 2]? := hr.keys _ hlk
          simp only at ekm
          rw [hkk, List.getElem?_eq_getElem hlk] at ekm
          rw [← Res.ok.inj ekm]
          exact List.getElem_mem hlk
        have hh : LN o.N (d + 1) false (⟨(if km < sr.1 then (o.N + 1) / 2 + 1 else (o.N + 1) / 2) - 1, n.keys, kids⟩ :
            BNode K (Tree K (d + 1))) := by
          refine ⟨Or.inr ?_, c1, hk1, hk2⟩
          simp only
          rw [if_pos hkm]; omega
        refine ⟨⟨Or.inr ?_, c1, hk1, hk2⟩, fun _ => hh⟩
        simp only
        rw [if_pos hkm]; omega
      · rw [if_neg hf] at er
        obtain ⟨p, ep, er⟩ := Res.bind_eq_ok.1 er
        rw [← Res.ok.inj er]
        unfold pushEntry at ep
        obtain ⟨keys, e1, ep⟩ := Res.bind_eq_ok.1 ep
        obtain ⟨kids', e2, ep⟩ := Res.bind_eq_ok.1 ep
        rw [← Res.ok.inj ep]
        refine ⟨⟨?_, c1, ?_, hk2⟩, fun hh => absurd rfl hh⟩
        · rcases hn1 with hn | hn
          · exact Or.inl hn
          · exact Or.inr (by simp only; omega)
        · simp only at e2
          rw [wr_ok _ _ (by have := hr.num; omega)] at e2
          rw [← Res.ok.inj e2]
          simp only; rw [if_neg (by omega)]; exact hk1

/-- The same for a whole tree. -/
def LNS (N : Nat) (s : State K L) : Prop :=
  ∃ (d : Nat) (n : BNode K (Tree K d)) (h : Heap L), s = ⟨d + 1, n, h⟩ ∧ LN N d true n

theorem recLoop_LN (hN : 3 ≤ o.N) {h : Heap L} : ∀ (post pre : List Nat) (fuel : Nat) (s s' : State K L),
    RecS W lm h s pre → LNS o.N s → Sorted (content W h (pre ++ post)) → (∀ x ∈ post, LeafReady W lm h x) →
    post.IsChain (fun a b => h.next a = some b) → (∀ x ∈ post.getLast?, h.next x = Option.none) →
    recLoop o false fuel s post.head? = .ok s' → LNS o.N s'
  | [], pre, fuel, s, s', hs, hl, _, _, _, _, e => by
    cases fuel <;> (rw [List.head?_nil, recLoop] at e; rw [← Res.ok.inj e]; exact hl)
  | x :: post, pre, 0, s, s', hs, hl, _, _, _, _, e => by
    rw [List.head?_cons, recLoop] at e; exact absurd e (by simp)
  | x :: post, pre, fuel + 1, s, s', hs, hln, hsort, hready, hch, hlast, e => by
    obtain ⟨l, a, as, hl, hok, hlen, hab, hmin⟩ := hready x (by simp)
    have hlt : ∀ y ∈ content W h pre, bk y.1 < bk a.1 := by
      intro y hy
      have hsort' := hsort
      rw [content_append, sorted_append] at hsort'
      exact bk_lt.2 (hsort'.2.2 y hy a (by rw [content_cons]; simp [ent, hl, hab]))
    obtain ⟨s1, e1, hs1⟩ := recoveryInsert_spec false (by omega) hl hok hlen hab hmin hs hlt
    have hnext : h.next x = post.head? := by
      cases post with
      | nil => exact hlast x (by simp)
      | cons y post => exact (List.isChain_cons_cons.1 hch).1
    rw [List.head?_cons, recLoop, hs.1, Heap.get, hl, Res.ofOption_some, Res.ok_bind, e1, Res.ok_bind, hnext] at e
    refine recLoop_LN hN post (pre ++ [x]) fuel s1 s' hs1 ?_
      (by simpa using hsort) (fun y hy => hready y (List.mem_cons_of_mem _ hy))
      (by cases post with
        | nil => simp
        | cons y post => exact (List.isChain_cons_cons.1 hch).2)
      (by
        intro y hy
        apply hlast
        cases post with
        | nil => simp at hy
        | cons z post => rw [List.getLast?_cons_cons]; exact hy) e
    obtain ⟨d, n, h0, rfl, hn⟩ := hln
    obtain ⟨hh, hd, hrec, hids⟩ := hs
    dsimp only at hh hd hrec hids
    subst hh
    rw [recoveryInsert] at e1
    obtain ⟨q, eq, e1⟩ := Res.bind_eq_ok.1 e1
    have hq := recIns_LN hN hl hok hlen hab hmin d true n ⊥ q hrec bot_le (by rw [hids]; exact hlt) hn eq
    cases hq2 : q.2 with
    | none =>
      rw [hq2] at e1
      rw [← Res.ok.inj e1]; exact ⟨d, q.1, h0, rfl, hq.1⟩
    | some sr =>
      rw [hq2] at e1
      obtain ⟨m, em, e1⟩ := Res.bind_eq_ok.1 e1
      rw [← Res.ok.inj e1]
      refine ⟨d + 1, m, h0, rfl, Or.inl rfl, q.1, ?_, hq.2 (by rw [hq2]; simp)⟩
      obtain ⟨m', em', hm⟩ := newRoot_rep (α := Tree K (d + 1)) o (by omega) q.1 sr.1 sr.2
      rw [em] at em'
      rw [Res.ok.inj em']
      exact rep_mid (l := []) hm.kids

end Verif.BTree
