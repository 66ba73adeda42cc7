import Verif.Proofs.WildQueue
/-!
# Updating the location index
-/
namespace Verif.Wild
open Verif Verif.Spec

/-- The number and the first of positions. -/
def summ : List Int → Option (Int × Int)
  | [] => none
  | x :: r => some ((x :: r).length, x)

/-- The queue holds the numbers of the positions `g`, without the pair that is merged. -/
def QRep (pair : Str) (g : Str → List Int) (q : Queue) : Prop := Rep q fun k => if k = pair then none else summ (g k)

theorem QRep.congr {pair : Str} {g h : Str → List Int} {q : Queue} (e : ∀ k, k ≠ pair → g k = h k) (hq : QRep pair g q) :
    QRep pair h q := by
  have : (fun k => if k = pair then none else summ (g k)) = fun k => if k = pair then none else summ (h k) := by
    funext k
    by_cases hk : k = pair
    · simp [hk]
    · rw [if_neg hk, if_neg hk, e k hk]
  unfold QRep at *
  rwa [this] at hq

theorem applyChanges_append (pair : Str) (ch : List Change) (c : Change) : ∀ (q : Queue) (occ : Int),
    applyChanges pair (ch ++ [c]) q occ =
      (if c.disappearing ≠ pair then
        (((applyChanges pair ch q occ).1.add c.appeared c.n c.first).add c.disappearing (-c.n) c.firstLeft,
          (applyChanges pair ch q occ).2)
      else ((applyChanges pair ch q occ).1.add c.appeared c.n c.first, (applyChanges pair ch q occ).2 - c.n)) := by
  induction ch with
  | nil => intro q occ; simp only [List.nil_append, applyChanges]
  | cons x r ih =>
    intro q occ
    simp only [List.cons_append, applyChanges]
    split
    · exact ih _ _
    · exact ih _ _

/-- The state of the loops: the index holds `f`, the queue (after the changes) holds `g`, empty lists are only stored for `E`,
and `occ` is the number of occurrences. -/
structure Good (pair : Str) (q0 : Queue) (occ0 : Int) (st : Loc × List Change) (f g : Str → List Int) (E : Str → Prop)
    (occ : Int) : Prop where
  look : ∀ k, look st.1 k = f k
  emp : ∀ k, st.1.get? k = some [] → E k
  q : QRep pair g (applyChanges pair st.2 q0 occ0).1
  occ : (applyChanges pair st.2 q0 occ0).2 = occ

theorem look_set (loc : Loc) (k k' : Str) (l : List Int) : Wild.look (loc.set k l) k' = if k' = k then l else Wild.look loc k' := by
  unfold Wild.look
  rw [Dict.get?_set]
  by_cases h : k = k'
  · subst h; simp
  · rw [if_neg h, if_neg (Ne.symm h)]

theorem upd_self {β : Type} {f : Str → β} {k : Str} {v : β} (h : f k = v) : upd f k v = f := by
  funext k'; unfold upd; split
  · next e => rw [e, h]
  · rfl

variable {pair : Str} {q0 : Queue} {occ0 : Int} {st : Loc × List Change} {f g : Str → List Int} {E : Str → Prop} {occ : Int}

theorem Good.record (h : Good pair q0 occ0 st f g E occ) {appeared d : Str} {locs left : List Int} (ha : appeared ≠ pair)
    (had : appeared ≠ d) (hf : f appeared = []) (hg : g appeared = [])
    (hl : d ≠ pair → (g d).length = locs.length + left.length) (hn : locs = [] → d ≠ pair → left = g d) :
    Good pair q0 occ0 (record st.1 st.2 appeared d locs left) (upd f appeared locs) (upd (upd g appeared locs) d left) E
      (if d = pair then occ - locs.length else occ) := by
  cases locs with
  | nil =>
    rw [upd_self hf, upd_self hg]
    refine ⟨h.look, h.emp, h.q.congr ?_, ?_⟩
    · intro k hk
      by_cases e : k = d
      · subst e; rw [upd_same, hn rfl hk]
      · rw [upd_other e]
    · rw [show (Wild.record st.1 st.2 appeared d [] left).2 = st.2 from rfl, h.occ]; split <;> simp
  | cons p r =>
    have hq := h.q
    refine ⟨?_, ?_, ?_, ?_⟩
    · intro k
      show Wild.look (st.1.set appeared (p :: r)) k = _
      rw [look_set, h.look]; rfl
    · intro k hk
      have hk : (st.1.set appeared (p :: r)).get? k = some [] := hk
      rw [Dict.get?_set] at hk
      by_cases e : appeared = k
      · rw [if_pos e] at hk; cases hk
      · rw [if_neg e] at hk; exact h.emp k hk
    · show QRep _ _ (applyChanges pair (st.2 ++ [_]) q0 occ0).1
      rw [applyChanges_append]
      have h1 : QRep pair (upd g appeared (p :: r))
          ((applyChanges pair st.2 q0 occ0).1.add appeared ((p :: r).length : Nat) p) := by
        have := Rep.add hq appeared ((p :: r).length : Nat) p
        unfold QRep
        rw [if_neg ha, hg] at this
        have e : bump (summ []) ((p :: r).length : Nat) p = summ (p :: r) := by
          simp [bump, summ]; omega
        rw [e] at this
        have e2 : (upd (fun k => if k = pair then none else summ (g k)) appeared (summ (p :: r))) =
            fun k => if k = pair then none else summ (upd g appeared (p :: r) k) := by
          funext k
          unfold upd
          by_cases e : k = appeared
          · subst e; simp [ha]
          · simp [e]
        rwa [e2] at this
      by_cases hd : d = pair
      · rw [if_neg (by simpa using hd)]
        refine h1.congr ?_
        intro k hk
        exact (upd_other (by rw [hd]; exact hk)).symm
      · rw [if_pos hd]
        have := Rep.add h1 d (-((p :: r).length : Nat)) ((left.head?).getD (-1))
        rw [if_neg hd, upd_other (Ne.symm had)] at this
        have e : bump (summ (g d)) (-((p :: r).length : Nat)) ((left.head?).getD (-1)) = summ left := by
          have hl' := hl hd
          cases hgd : g d with
          | nil => rw [hgd] at hl'; simp only [List.length_nil, List.length_cons] at hl'; omega
          | cons y t =>
            rw [hgd] at hl'
            unfold bump summ
            simp only [List.length_cons] at hl' ⊢
            cases left with
            | nil =>
              rw [if_pos]
              simp only [List.length_nil] at hl'; omega
            | cons z w =>
              simp only [List.length_cons] at hl' ⊢
              rw [if_neg (by omega)]
              simp only [List.head?_cons, Option.getD_some]
              congr 2; omega
        rw [e] at this
        have e2 : (upd (fun k => if k = pair then none else summ (upd g appeared (p :: r) k)) d (summ left)) =
            fun k => if k = pair then none else summ (upd (upd g appeared (p :: r)) d left k) := by
          funext k
          by_cases e : k = d
          · subst e; simp [upd, hd]
          · rw [upd_other e, upd_other e]
        rw [e2] at this
        exact this
    · show (applyChanges pair (st.2 ++ [_]) q0 occ0).2 = _
      rw [applyChanges_append]
      by_cases hd : d = pair
      · rw [if_neg (by simpa using hd), if_pos hd, ← h.occ]
      · rw [if_pos hd, if_neg hd, ← h.occ]

/-! ## One disappearing pair -/

def remR (M : List Int) (la : Int) (l : List Int) : List Int := l.filter fun y => decide (y - la ∉ M)
def resR (M : List Int) (la lb : Int) (l : List Int) : List Int :=
  (l.filter fun y => decide (y - la ∈ M ∧ y + lb ∉ M)).map fun y => y - la
def dblR (M : List Int) (la lb : Int) (l : List Int) : List Int :=
  (l.filter fun y => decide (y - la ∈ M ∧ y + lb ∈ M)).map fun y => y - la

theorem len_filter_not {l : List Int} {P : Int → Prop} [DecidablePred P] :
    l.length = (l.filter fun y => decide (P y)).length + (l.filter fun y => decide (¬ P y)).length := by
  induction l with
  | nil => rfl
  | cons x l ih =>
    simp only [List.filter_cons]
    by_cases h : P x
    · simp only [h, not_true_eq_false, decide_true, decide_false, if_true, List.length_cons]
      simp only [Bool.false_eq_true, if_false]; omega
    · simp only [h, not_false_eq_true, decide_true, decide_false, if_true, List.length_cons]
      simp only [Bool.false_eq_true, if_false]; omega

theorem filter_nil_not {l : List Int} {P : Int → Prop} [DecidablePred P] (h : (l.filter fun y => decide (P y)) = []) :
    (l.filter fun y => decide (¬ P y)) = l := by
  rw [List.filter_eq_self]
  intro x hx
  have := List.filter_eq_nil_iff.mp h x hx
  simpa using this

theorem map_nil {l : List Int} {h : Int → Int} (e : l.map h = []) : l = [] := by simpa using e

theorem mergeLists_right {M l : List Int} {la : Int} (hla : 0 < la) (hM : M.Pairwise (· < ·)) (hl : l.Pairwise (· < ·)) :
    mergeLists la M l = (remR M la l, (l.filter fun y => decide (y - la ∈ M)).map fun y => y - la) := by
  rw [mergeLists_eq la hM hl]
  unfold remR
  congr 1
  refine List.map_congr_left fun y _ => ?_
  omega

theorem mergeLists_left {M l : List Int} {lx : Int} (hlx : 0 < lx) (hM : M.Pairwise (· < ·)) (hl : l.Pairwise (· < ·)) :
    mergeLists (-lx) M l = (l.filter fun y => decide (y + lx ∉ M), l.filter fun y => decide (y + lx ∈ M)) := by
  rw [mergeLists_eq (-lx) hM hl]
  have e : ∀ y : Int, y - -lx = y + lx := fun y => by omega
  simp only [e]
  congr 1
  rw [List.map_congr_left (g := fun y => y) (fun y _ => by omega)]
  simp

theorem Good.set {st : Loc × List Change} {f g : Str → List Int} {E : Str → Prop} {occ : Int} {d : Str} {l : List Int}
    (h : Good pair q0 occ0 st f (upd g d l) E occ) (hfg : ∀ k, k ≠ d → f k = g k) (hE : E d) :
    Good pair q0 occ0 (st.1.set d l, st.2) (upd g d l) (upd g d l) E occ := by
  refine ⟨fun k => ?_, fun k hk => ?_, h.q, h.occ⟩
  · rw [look_set, h.look]
    unfold upd
    split
    · rfl
    · next e => exact hfg k e
  · rw [Dict.get?_set] at hk
    by_cases e : d = k
    · subst e; exact hE
    · rw [if_neg e] at hk; exact h.emp k hk

variable {a b : Str}

theorem updateOne_right (ha : NS a) (hb : NS b) (hane : a ≠ []) (hbne : b ≠ []) {M : List Int}
    (hM : M.Pairwise fun (x y : Int) => x + a.length + b.length ≤ y) {v : Str} (hv : NS v) (hvc : v ≠ a ++ b) {l : List Int}
    (hl : l.Pairwise (· < ·)) {dis : Option (List Int)}
    (hpos : positionsOf (join a b) dis .right (join b v) st.1 = .ok (some l)) (hld : join b v ≠ join a b → l = f (join b v))
    (hva : v = a → M ≠ l) (hvna : v ≠ a → ∀ y ∈ l, y + (b.length : Int) ∉ M)
    (h : Good (join a b) q0 occ0 st f f E occ) (hE : E (join b v))
    (h1 : f (join (a ++ b) v) = []) (h2 : v = a → f (join (a ++ b) (a ++ b)) = []) :
    ∃ st', updateOne (join a b) M dis .right st (join b v) = .ok st' ∧
      Good (join a b) q0 occ0 st'
        (upd (upd (if v = a then upd f (join (a ++ b) (a ++ b)) (dblR M a.length b.length l) else f)
          (join (a ++ b) v) (resR M a.length b.length l)) (join b v) (remR M a.length l))
        (upd (upd (if v = a then upd f (join (a ++ b) (a ++ b)) (dblR M a.length b.length l) else f)
          (join (a ++ b) v) (resR M a.length b.length l)) (join b v) (remR M a.length l)) E
        (if join b v = join a b then
          occ - ((if v = a then (dblR M a.length b.length l).length else 0) + (resR M a.length b.length l).length : Int)
        else occ) := by
  have hla : (0 : Int) < a.length := by have := List.length_pos_iff.mpr hane; omega
  have hlb : (0 : Int) < b.length := by have := List.length_pos_iff.mpr hbne; omega
  have hc : NS (a ++ b) := ns_append ha hb
  have hcb : a ++ b ≠ b := fun e => by have := congrArg List.length e; simp at this; exact hane this
  have hca : a ++ b ≠ a := fun e => by have := congrArg List.length e; simp at this; exact hbne this
  have hMs : M.Pairwise (· < ·) := hM.imp fun h => by omega
  have k1 : join (a ++ b) v ≠ join a b := fun e => hca ((join_inj hc ha).mp e).1
  have k2 : join (a ++ b) v ≠ join b v := fun e => hcb ((join_inj hc hb).mp e).1
  have k3 : join (a ++ b) (a ++ b) ≠ join a b := fun e => hca ((join_inj hc ha).mp e).1
  have k4 : join (a ++ b) (a ++ b) ≠ join b v := fun e => hcb ((join_inj hc hb).mp e).1
  have k5 : join (a ++ b) v ≠ join (a ++ b) (a ++ b) := fun e => hvc ((join_inj hc hc).mp e).2
  unfold updateOne
  simp only [hpos, bind, Except.bind, updateDouble, can_right hb hv ha hb]
  by_cases hva' : v = a
  · subst hva'
    have hml : M ≠ l := hva rfl
    have hboth : mergeListsBoth M l v.length (-(b.length : Int)) =
        .ok (l.filter fun y => decide (¬ (y - (v.length : Int) ∈ M ∧ y + (b.length : Int) ∈ M)), dblR M v.length b.length l) := by
      unfold mergeListsBoth
      have e1 : (!(decide ((v.length : Int) > 0) && decide (-(b.length : Int) < 0))) = false := by
        simp only [Bool.not_eq_false', Bool.and_eq_true, decide_eq_true_eq]; omega
      rw [e1, if_neg (by simp), if_neg hml, mergeBothLoop_eq hla (by omega)
        (hM.imp fun h => by omega) hl]
      have e : ∀ y : Int, y - -(b.length : Int) = y + b.length := fun y => by omega
      simp only [e]
      rfl
    simp only [decide_true, Bool.and_self, if_true, Side.opposite, shift_right ha hb, shift_left hb hv, hboth, pure,
      Except.pure, double_join ha hb, concat_right ha hb hv]
    have hs1 : (l.filter fun y => decide (¬ (y - (v.length : Int) ∈ M ∧ y + (b.length : Int) ∈ M))).Pairwise (· < ·) :=
      hl.filter _
    rw [mergeLists_right hla hMs hs1]
    simp only
    refine ⟨_, rfl, ?_⟩
    have lenD : (dblR M v.length b.length l).length =
        (l.filter fun y => decide (y - (v.length : Int) ∈ M ∧ y + (b.length : Int) ∈ M)).length := by
      unfold dblR; rw [List.length_map]
    have s1 := h.record (appeared := join (v ++ b) (v ++ b)) (d := join b v) (locs := dblR M v.length b.length l)
      (left := l.filter fun y => decide (¬ (y - (v.length : Int) ∈ M ∧ y + (b.length : Int) ∈ M)))
      k3 k4 (h2 rfl) (h2 rfl)
      (by intro hd; rw [← hld hd, lenD]; exact len_filter_not)
      (by
        intro hd hp; rw [← hld hp]
        exact filter_nil_not (map_nil hd))
    have erem : remR M v.length (l.filter fun y => decide (¬ (y - (v.length : Int) ∈ M ∧ y + (b.length : Int) ∈ M))) =
        remR M v.length l := by
      unfold remR
      rw [List.filter_filter]
      refine List.filter_congr fun y _ => ?_
      by_cases g : y - (v.length : Int) ∈ M <;> simp [g]
    have eres : (List.filter (fun y => decide (y - (v.length : Int) ∈ M))
        (l.filter fun y => decide (¬ (y - (v.length : Int) ∈ M ∧ y + (b.length : Int) ∈ M)))).map
          (fun y => y - (v.length : Int)) = resR M v.length b.length l := by
      unfold resR
      rw [List.filter_filter]
      congr 1
      refine List.filter_congr fun y _ => ?_
      by_cases g : y - (v.length : Int) ∈ M <;> simp [g]
    have s2 := s1.record (appeared := join (v ++ b) v) (d := join b v) (locs := resR M v.length b.length l)
      (left := remR M v.length l) k1 k2 (by rw [upd_other k5, h1])
      (by rw [upd_other k2, upd_other k5, h1])
      (by
        intro hd; rw [upd_same, ← erem, ← eres, List.length_map]
        exact len_filter_not)
      (by
        intro hd hp; rw [upd_same, ← erem]
        rw [← eres] at hd
        exact filter_nil_not (map_nil hd))
    rw [erem, eres]
    have s3 := Good.set (g := upd (upd f (join (v ++ b) (v ++ b)) (dblR M v.length b.length l)) (join (v ++ b) v)
      (resR M v.length b.length l)) (d := join b v) (l := remR M v.length l) (E := E)
      (f := upd (upd f (join (v ++ b) (v ++ b)) (dblR M v.length b.length l)) (join (v ++ b) v) (resR M v.length b.length l))
      (st := record _ _ _ _ _ _) (occ := _)
      ⟨s2.look, s2.emp, s2.q.congr ?_, s2.occ⟩ (fun _ _ => rfl) hE
    · refine ⟨s3.look, s3.emp, s3.q, s3.occ.trans ?_⟩
      by_cases hd : join b v = join v b
      · simp only [if_pos hd]; omega
      · simp only [if_neg hd]
    · intro k _
      unfold upd
      by_cases e1 : k = join b v
      · simp [e1]
      · simp [e1]
  · have e0 : (decide (v = a) && decide True) = false := by simp [hva']
    rw [e0]
    simp only [Bool.false_eq_true, if_false, pure, Except.pure, concat_right ha hb hv, shift_right ha hb]
    rw [mergeLists_right hla hMs hl]
    simp only
    refine ⟨_, rfl, ?_⟩
    have eres : (List.filter (fun y => decide (y - (a.length : Int) ∈ M)) l).map
          (fun y => y - (a.length : Int)) = resR M a.length b.length l := by
      unfold resR
      congr 1
      refine List.filter_congr fun y hy => ?_
      have := hvna hva' y hy
      simp [this]
    have s2 := h.record (appeared := join (a ++ b) v) (d := join b v) (locs := resR M a.length b.length l)
      (left := remR M a.length l) k1 k2 h1 h1
      (by
        intro hd; rw [← hld hd, ← eres, List.length_map]
        exact len_filter_not)
      (by
        intro hd hp; rw [← hld hp]
        rw [← eres] at hd
        exact filter_nil_not (map_nil hd))
    rw [eres]
    simp only [if_neg hva']
    have s3 := Good.set s2 (fun _ _ => rfl) hE
    refine ⟨s3.look, s3.emp, s3.q, s3.occ.trans ?_⟩
    by_cases hd : join b v = join a b
    · simp only [if_pos hd]; omega
    · simp only [if_neg hd]

end Verif.Wild
