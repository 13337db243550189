import Verif.BTree.Recover
import Verif.BTree.Erase

/-!
# The shape of a recovered FPTree

`recover` (FPTree.hpp:374-405, 1184-1261) fills the branch nodes one after the other.  All nodes that are not on the right spine are
full; the fill of the right spine is given by the digits of the number of leaves minus one in base `N + 1`.
-/

set_option linter.unusedSectionVars false

namespace Verif.BTree

open Verif Assoc
open Verif.Slots hiding none

variable {K V L T α : Type} [LinearOrder K] {o : Ops K V L} {W : Laws o} {Q : L → Bd K → Bd K → Prop} {lm bm : Nat}

/-- A tree with `m` leaves whose nodes left of the right spine are full.  The key array of a node without separators has never
been written. -/
def Sh (N : Nat) : (d : Nat) → Tree K d → Nat → Prop
  | 0, _, m => m = 1
  | d + 1, n, m => ∃ (cs : List (Tree K d)) (c : Tree K d) (ks : List K) (m' : Nat), NodeRep N n (cs ++ [c]) ks ∧ (ks = [] → n.keys 0 = none) ∧
      (∀ x ∈ cs, Sh N d x ((N + 1) ^ d)) ∧ Sh N d c m' ∧ m = cs.length * (N + 1) ^ d + m'

theorem Sh.bound {N : Nat} : ∀ {d : Nat} {t : Tree K d} {m : Nat}, Sh N d t m → 1 ≤ m ∧ m ≤ (N + 1) ^ d
  | 0, _, m, h => by simp [show m = 1 from h]
  | d + 1, n, m, ⟨cs, c, ks, m', hr, _, _, hc, hm⟩ => by
    have h1 := hc.bound
    have hl := hr.len
    have hcap := hr.cap
    simp only [List.length_append, List.length_singleton] at hl
    have : cs.length * (N + 1) ^ d ≤ N * (N + 1) ^ d := Nat.mul_le_mul_right _ (by omega)
    have e : (N + 1) ^ (d + 1) = N * (N + 1) ^ d + (N + 1) ^ d := by rw [pow_succ]; ring
    omega

/-- The number of separators of the topmost node. -/
theorem Sh.num {N : Nat} {d : Nat} {n : BNode K (Tree K d)} {m : Nat} (h : Sh N (d + 1) n m) : n.num = (m - 1) / (N + 1) ^ d := by
  obtain ⟨cs, c, ks, m', hr, _, _, hc, rfl⟩ := h
  have h1 := hc.bound
  have hl := hr.len
  simp only [List.length_append, List.length_singleton] at hl
  have hp : 0 < (N + 1) ^ d := Nat.pow_pos (by omega)
  rw [hr.num, show cs.length * (N + 1) ^ d + m' - 1 = (m' - 1) + cs.length * (N + 1) ^ d by omega, Nat.add_mul_div_right _ _ hp,
    Nat.div_eq_of_lt (by omega)]
  omega

theorem Sh.length {N : Nat} : ∀ {d : Nat} {t : Tree K d} {m : Nat}, Sh N d t m → (ids d t).length = m
  | 0, _, m, h => by simp [ids, show m = 1 from h]
  | d + 1, n, m, ⟨cs, c, ks, m', hr, _, hcs, hc, hm⟩ => by
    have : ∀ l : List (Tree K d), (∀ x ∈ l, Sh N d x ((N + 1) ^ d)) → (l.flatMap (ids d)).length = l.length * (N + 1) ^ d := by
      intro l
      induction l with
      | nil => simp
      | cons a l ih =>
        intro h
        rw [List.flatMap_cons, List.length_append, ih (fun x hx => h x (List.mem_cons_of_mem _ hx)), (h a (by simp)).length,
          List.length_cons]
        ring
    rw [ids_rep hr, List.flatMap_append, List.length_append, this cs hcs]
    simp only [List.flatMap_cons, List.flatMap_nil, List.append_nil]
    rw [hc.length, hm]

/-! ## The recovery -/

theorem single_sh (o : Ops K V L) {d : Nat} {c : Tree K d} (hc : Sh o.N d c 1) {n : BNode K (Tree K d)} (e : singleNode o c = .ok n) :
    Sh o.N (d + 1) n 1 := by
  obtain ⟨n', e', hr⟩ := singleNode_rep o c
  have hk : n.keys 0 = none := by
    unfold singleNode at e
    obtain ⟨_, _, e⟩ := Res.bind_eq_ok.1 e
    cases Res.ok.inj e
    rfl
  rw [e] at e'
  cases Res.ok.inj e'
  exact ⟨[], c, [], 1, hr, fun _ => hk, by simp, hc, by simp⟩

theorem push_sh {d : Nat} {n : BNode K (Tree K d)} {cs : List (Tree K d)} {c x : Tree K d} {ks : List K} {k : K}
    (hr : NodeRep o.N n (cs ++ [c]) ks) (hcap : ks.length < o.N) (hcs : ∀ x ∈ cs, Sh o.N d x ((o.N + 1) ^ d))
    (hc : Sh o.N d c ((o.N + 1) ^ d)) (hx : Sh o.N d x 1) {n' : BNode K (Tree K d)} (e : pushEntry o n k x = .ok n') :
    Sh o.N (d + 1) n' (cs.length * (o.N + 1) ^ d + (o.N + 1) ^ d + 1) := by
  obtain ⟨n2, e2, hr2⟩ := pushEntry_rep hr hcap k x
  rw [e] at e2
  cases Res.ok.inj e2
  refine ⟨cs ++ [c], x, ks ++ [k], 1, hr2, fun h => by simp at h, fun y hy => ?_, hx, ?_⟩
  · rcases List.mem_append.1 hy with hy | hy
    · exact hcs y hy
    · rw [List.mem_singleton.1 hy]; exact hc
  · rw [List.length_append, List.length_singleton]; ring

theorem recIns_sh {h : Heap L} {x : Nat} : ∀ (d : Nat) (n : BNode K (Tree K d)) (m : Nat)
    (r : BNode K (Tree K d) × Option (K × BNode K (Tree K d))), Sh o.N (d + 1) n m → recIns o true h x d n = .ok r →
    match r.2 with
    | none => Sh o.N (d + 1) r.1 (m + 1)
    | some s => m = (o.N + 1) ^ (d + 1) ∧ Sh o.N (d + 1) r.1 m ∧ Sh o.N (d + 1) s.2 1
  | 0, n, m, r, hs, e => by
    have hs0 := hs
    obtain ⟨cs, c, ks, m', hr, hz, hcs, hc, hm⟩ := hs
    have hl := hr.len
    have hcap := hr.cap
    simp only [List.length_append, List.length_singleton] at hl
    rw [recIns] at e
    obtain ⟨l, _, e⟩ := Res.bind_eq_ok.1 e
    obtain ⟨k, _, e⟩ := Res.bind_eq_ok.1 e
    have hm' : m' = 1 := hc
    by_cases hf : n.num = o.N
    · rw [if_pos hf] at e
      obtain ⟨q, e1, e⟩ := Res.bind_eq_ok.1 e
      cases Res.ok.inj e
      have := hr.num
      refine ⟨?_, hs0, single_sh (d := 0) o (show Sh o.N 0 x 1 from rfl) e1⟩
      rw [hm, hm']
      simp; omega
    · rw [if_neg hf] at e
      obtain ⟨q, e1, e⟩ := Res.bind_eq_ok.1 e
      cases Res.ok.inj e
      have := hr.num
      have h1 := push_sh (d := 0) hr (by omega) hcs (show Sh o.N 0 c ((o.N + 1) ^ 0) by simp; exact rfl) (show Sh o.N 0 x 1 from rfl) e1
      dsimp only
      rw [hm, hm']
      simpa using h1
  | d + 1, n, m, r, hs, e => by
    obtain ⟨cs, c, ks, m', hr, hz, hcs, hc, hm⟩ := hs
    have hl := hr.len
    have hcap := hr.cap
    simp only [List.length_append, List.length_singleton] at hl
    have hnum : n.num = cs.length := by rw [hr.num]; omega
    have hrd : rd (o.N + 1) n.kids n.num = .ok c := by
      rw [hnum]; exact rd_mid (r := []) hr.kids (by omega)
    rw [recIns, hrd, Res.ok_bind] at e
    obtain ⟨r1, e1, e⟩ := Res.bind_eq_ok.1 e
    obtain ⟨kids, ek, hrk⟩ := NodeRep.setKid (c2 := []) r1.1 hr
    rw [← hnum] at ek
    rw [ek, Res.ok_bind] at e
    have ih := recIns_sh d c m' r1 hc e1
    dsimp only at e
    cases hsp : r1.2 with
    | none =>
      rw [hsp] at e ih
      cases Res.ok.inj e
      exact ⟨cs, r1.1, ks, m' + 1, hrk, hz, hcs, ih, by omega⟩
    | some s =>
      rw [hsp] at e ih
      dsimp only at e ih
      obtain ⟨i1, i2, i3⟩ := ih
      by_cases hf : n.num = o.N
      · rw [if_pos hf, if_pos rfl] at e
        obtain ⟨q, e2, e⟩ := Res.bind_eq_ok.1 e
        cases Res.ok.inj e
        refine ⟨?_, ⟨cs, r1.1, ks, m', hrk, hz, hcs, i2, hm⟩, single_sh o i3 e2⟩
        rw [hm, i1, show cs.length = o.N by omega]; ring
      · rw [if_neg hf] at e
        obtain ⟨q, e2, e⟩ := Res.bind_eq_ok.1 e
        cases Res.ok.inj e
        have h1 := push_sh hrk (by have := hr.num; omega) hcs (i1 ▸ i2) i3 e2
        dsimp only
        rw [hm, i1]
        exact h1

theorem recoveryInsert_sh (hN : 1 ≤ o.N) {s s' : State K L} {x : Nat} (e : recoveryInsert o true s x = .ok s')
    (hs : ∃ m, Sh o.N s.depth s.root m ∧ (o.N + 1) ^ (s.depth - 1) ≤ m) :
    1 ≤ s'.depth ∧ ∃ m, Sh o.N s'.depth s'.root m ∧ (o.N + 1) ^ (s'.depth - 1) < m := by
  obtain ⟨d, n, h⟩ := s
  obtain ⟨m, hs, hm⟩ := hs
  cases d with
  | zero => rw [recoveryInsert] at e; cases e
  | succ d =>
    rw [recoveryInsert] at e
    obtain ⟨r, e1, e⟩ := Res.bind_eq_ok.1 e
    have h1 := recIns_sh d n m r hs e1
    dsimp only at hm
    cases hsp : r.2 with
    | none =>
      rw [hsp] at h1 e
      cases Res.ok.inj e
      exact ⟨by simp, m + 1, h1, by simp only [Nat.add_sub_cancel] at hm ⊢; omega⟩
    | some q =>
      rw [hsp] at h1 e
      dsimp only at h1 e
      obtain ⟨nr, en, hnr⟩ := newRoot_rep o hN r.1 q.1 q.2
      rw [en, Res.ok_bind] at e
      cases Res.ok.inj e
      refine ⟨by simp, m + 1, ⟨[r.1], q.2, [q.1], 1, hnr, fun h => by simp at h, ?_, h1.2.2, ?_⟩, ?_⟩
      · intro y hy
        rw [List.mem_singleton.1 hy, ← h1.1]
        exact h1.2.1
      · rw [List.length_singleton, Nat.one_mul, h1.1]
      · rw [h1.1]; simp

theorem recLoop_sh (hN : 1 ≤ o.N) : ∀ (fuel : Nat) (s s' : State K L) (x : Option Nat), recLoop o true fuel s x = .ok s' →
    (1 ≤ s.depth ∧ ∃ m, Sh o.N s.depth s.root m ∧ (o.N + 1) ^ (s.depth - 1) < m) →
    1 ≤ s'.depth ∧ ∃ m, Sh o.N s'.depth s'.root m ∧ (o.N + 1) ^ (s'.depth - 1) < m
  | 0, s, s', none, e, hs => by rw [recLoop] at e; cases Res.ok.inj e; exact hs
  | 0, s, s', some x, e, hs => by rw [recLoop] at e; cases e
  | fuel + 1, s, s', none, e, hs => by rw [recLoop] at e; cases Res.ok.inj e; exact hs
  | fuel + 1, s, s', some x, e, hs => by
    rw [recLoop] at e
    obtain ⟨_, _, e⟩ := Res.bind_eq_ok.1 e
    obtain ⟨s1, e1, e⟩ := Res.bind_eq_ok.1 e
    obtain ⟨_, m, h1, h2⟩ := hs
    exact recLoop_sh hN fuel s1 s' _ e (recoveryInsert_sh hN e1 ⟨m, h1, h2.le⟩)

/-- The shape after `recover`. -/
theorem recoverF_sh (hN : 1 ≤ o.N) {h : Heap L} {first : Nat} {s : State K L} (e : recoverF o h first = .ok s) :
    ∃ m, Sh o.N s.depth s.root m ∧ (1 ≤ s.depth → (o.N + 1) ^ (s.depth - 1) < m) := by
  unfold recoverF at e
  obtain ⟨_, _, e⟩ := Res.bind_eq_ok.1 e
  cases hn : h.next first with
  | none =>
    rw [hn] at e
    cases Res.ok.inj e
    exact ⟨1, rfl, fun h => by simp at h⟩
  | some x =>
    rw [hn] at e
    dsimp only at e
    obtain ⟨r, e1, e⟩ := Res.bind_eq_ok.1 e
    have h0 : Sh o.N 1 r 1 := single_sh (d := 0) o (show Sh o.N 0 first 1 from rfl) e1
    cases hf : h.fresh with
    | zero => rw [hf, recLoop] at e; cases e
    | succ f =>
      rw [hf, recLoop] at e
      obtain ⟨_, _, e⟩ := Res.bind_eq_ok.1 e
      obtain ⟨s1, e2, e⟩ := Res.bind_eq_ok.1 e
      obtain ⟨_, m, h1, h2⟩ := recLoop_sh hN f s1 s _ e (recoveryInsert_sh hN e2 ⟨1, h0, by simp⟩)
      exact ⟨m, h1, fun _ => h2⟩

/-! ## The fill -/

/-- All digits but the leading one of `n` in base `b` are at least `x`. -/
def Digits (b x n : Nat) : Prop := ∀ i, b ^ (i + 1) ≤ n → x ≤ n / b ^ i % b

theorem digit_add {b i d a m : Nat} (hi : i < d) (hb : 0 < b) : (a * b ^ d + m) / b ^ i % b = m / b ^ i % b := by
  obtain ⟨j, rfl⟩ : ∃ j, d = i + 1 + j := ⟨d - i - 1, by omega⟩
  have hp : 0 < b ^ i := Nat.pow_pos hb
  rw [show a * b ^ (i + 1 + j) + m = m + (a * b ^ j * b) * b ^ i by rw [pow_add, pow_succ]; ring, Nat.add_mul_div_right _ _ hp,
    Nat.add_mul_mod_self_right]

theorem digit_full {N i d : Nat} (hi : i < d) : ((N + 1) ^ d - 1) / (N + 1) ^ i % (N + 1) = N := by
  obtain ⟨j, rfl⟩ : ∃ j, d = i + (j + 1) := ⟨d - i - 1, by omega⟩
  have hp : 0 < (N + 1) ^ i := Nat.pow_pos (by omega)
  have hq : 0 < (N + 1) ^ j := Nat.pow_pos (by omega)
  have e : (N + 1) ^ (i + (j + 1)) - 1 = ((N + 1) ^ i - 1) + ((N + 1) ^ (j + 1) - 1) * (N + 1) ^ i := by
    have h1 : (N + 1) ^ (i + (j + 1)) = (N + 1) ^ (j + 1) * (N + 1) ^ i := by rw [pow_add]; ring
    have h2 : 0 < (N + 1) ^ (j + 1) := Nat.pow_pos (by omega)
    obtain ⟨x, hx⟩ : ∃ x, (N + 1) ^ (j + 1) = x + 1 := ⟨_, (Nat.sub_add_cancel h2).symm⟩
    rw [h1, hx, Nat.add_sub_cancel, Nat.add_mul]
    omega
  rw [e, Nat.add_mul_div_right _ _ hp, Nat.div_eq_of_lt (by omega), Nat.zero_add]
  have e2 : (N + 1) ^ (j + 1) - 1 = N + ((N + 1) ^ j - 1) * (N + 1) := by
    obtain ⟨x, hx⟩ : ∃ x, (N + 1) ^ j = x + 1 := ⟨_, (Nat.sub_add_cancel hq).symm⟩
    rw [pow_succ, hx, Nat.add_sub_cancel, Nat.add_mul]
    omega
  rw [e2, Nat.add_mul_mod_self_right, Nat.mod_eq_of_lt (by omega)]

theorem Bt.top_num {h : Heap L} {d top top' : Nat} {n : BNode K (Tree K d)} {lo hi : Bd K} (hb : Bt W Q lm bm h (d + 1) top n lo hi)
    (ht : top' ≤ n.num) : Bt W Q lm bm h (d + 1) top' n lo hi := by
  obtain ⟨cs, ks, hr, _, h1⟩ := hb
  exact ⟨cs, ks, hr, by rw [← hr.num]; exact ht, h1⟩

theorem tile_imp {P P' : T → Bd K → Bd K → Prop} : ∀ {cs : List T} {bs : List (Bd K)}, Tile P cs bs →
    (∀ c ∈ cs, ∀ a b, P c a b → P' c a b) → Tile P' cs bs
  | [], [_], _, _ => trivial
  | c :: cs, a :: b :: bs, ⟨h1, h2⟩, hp =>
    ⟨hp c (by simp) a b h1, tile_imp h2 (fun x hx => hp x (List.mem_cons_of_mem _ hx))⟩

theorem Sh.fill (hbN : bm ≤ o.N) {h : Heap L} : ∀ (d top m : Nat) (t : Tree K d) (lo hi : Bd K), Bt W Q lm 0 h d top t lo hi →
    Sh o.N d t m → (∀ i, i + 1 < d → bm ≤ (m - 1) / (o.N + 1) ^ i % (o.N + 1)) → Bt W Q lm bm h d top t lo hi
  | 0, _, _, _, _, _, hb, _, _ => hb
  | d + 1, top, m, n, lo, hi, hb, hs, hd => by
    obtain ⟨cs, ks, hr, htop, ht⟩ := hb
    obtain ⟨cs', c, ks', m', hr', _, hcs, hc, hm⟩ := hs
    have hke : ks = ks' := rep_unique hr.keys hr'.keys (by rw [← hr.num, ← hr'.num])
    have hce : cs = cs' ++ [c] := rep_unique hr.kids hr'.kids (by rw [hr.len, hr'.len, hke])
    have hb1 := hc.bound
    refine ⟨cs, ks, hr, htop, tile_imp ht (fun x hx a b hp => ?_)⟩
    rw [hce] at hx
    obtain ⟨mx, hsx, hdx⟩ : ∃ mx, Sh o.N d x mx ∧ ∀ i, i < d → bm ≤ (mx - 1) / (o.N + 1) ^ i % (o.N + 1) := by
      rcases List.mem_append.1 hx with hx | hx
      · exact ⟨_, hcs x hx, fun i hi' => by rw [digit_full hi']; exact hbN⟩
      · rw [List.mem_singleton.1 hx]
        refine ⟨m', hc, fun i hi' => ?_⟩
        have := hd i (by omega)
        rw [hm, show cs'.length * (o.N + 1) ^ d + m' - 1 = cs'.length * (o.N + 1) ^ d + (m' - 1) by omega,
          digit_add hi' (by omega)] at this
        exact this
    cases d with
    | zero => exact hp
    | succ e =>
      have h1 := Sh.fill hbN (e + 1) 0 mx x a b hp hsx (fun i hi' => hdx i (by omega))
      refine Bt.top_num h1 ?_
      rw [hsx.num]
      have h2 := hdx e (by omega)
      rw [Nat.mod_eq_of_lt] at h2
      · exact h2
      · have := hsx.bound
        have e2 : (o.N + 1) * (o.N + 1) ^ e = (o.N + 1) ^ (e + 1) := Nat.pow_succ'.symm
        rw [Nat.div_lt_iff_lt_mul (Nat.pow_pos (by omega)), e2]
        omega

/-- A recovered tree whose number of leaves has large digits. -/
theorem recover_fill (hN : 1 ≤ o.N) (hbN : bm ≤ o.N) {h : Heap L} {first : Nat} {s : State K L} (e : recoverF o h first = .ok s)
    (g : Good W lm 0 0 s) (hd : Digits (o.N + 1) bm ((ids s.depth s.root).length - 1)) : Good W lm bm 1 s := by
  obtain ⟨m, hs, hm⟩ := recoverF_sh hN e
  refine ⟨?_, g.wf⟩
  rw [hs.length] at hd
  obtain ⟨d, t, h0⟩ := s
  have hbt := g.bt
  dsimp only at hs hm hbt ⊢
  cases d with
  | zero => exact Sh.fill hbN 0 _ m t ⊥ ⊤ hbt hs (fun i hi => by omega)
  | succ d =>
    have h2 := hm (by omega)
    rw [Nat.add_sub_cancel] at h2
    refine Bt.top_num (Sh.fill hbN (d + 1) _ m t ⊥ ⊤ hbt hs (fun i hi => hd i ?_)) ?_
    · have : (o.N + 1) ^ (i + 1) ≤ (o.N + 1) ^ d := Nat.pow_le_pow_right (by omega) (by omega)
      omega
    · simp only [rootMin]
      rw [hs.num, Nat.le_div_iff_mul_le (Nat.pow_pos (by omega))]
      omega

end Verif.BTree
