import Verif.Model.SourcesPre
import Verif.Spec.Rapifier
import Verif.Lib.PreprocAsk
import Verif.Lib.PreprocFrom
import Verif.Props.PreprocTidy
import Verif.Props.Processed
/-! The preprocessor at work on the files of the project. -/
namespace Verif.Sources
open Verif.Rapifier
open Verif.Commands (Pre)
open Verif.Preproc

namespace Project
variable (D : Project)

/-- A file that can be asked for. -/
def Needed (root : Text) (f : Text) : Prop := f = root ∨ ∃ c t b, D.locate c t = some (f, b)

theorem tokens_path {f : Text} {s : Option Text} {all : List Tok} (h : D.tokens f s = .ok all) : ∀ t ∈ all, t.pos.path = f := by
  cases s with
  | none => cases h
  | some s =>
    unfold tokens at h
    dsimp only at h
    cases ht : tokenise D.cl f s with
    | none => rw [ht] at h; cases h
    | some ts =>
      rw [ht] at h
      obtain rfl := Except.ok.inj h
      rw [tokenise] at ht
      cases hp : pairs D.cl s.length s with
      | none => rw [hp] at ht; cases ht
      | some ps =>
        rw [hp] at ht
        obtain rfl := Option.some.inj ht
        exact Ex.lexLoop_path f ps {}

theorem tokens_fails {f : Text} {s : Option Text} {e : PErr} (h : D.tokens f s = .error e) :
    e = .panic ∨ ∃ t, e = .code 24 t ∧ t.pos.path = f := by
  cases s with
  | none => cases h; exact .inl rfl
  | some s =>
    unfold tokens at h
    dsimp only at h
    cases ht : tokenise D.cl f s with
    | none => rw [ht] at h; cases h; exact .inr ⟨_, rfl, rfl⟩
    | some ts => rw [ht] at h; cases h

theorem known_own (l : List (Text × Option Text)) : Spec.OwnPlaces (D.env (D.known l fun _ => .panic)) where
  path f all h := by
    simp only [env, known] at h
    cases hf : l.lookup f with
    | none => rw [hf] at h; cases h
    | some s => rw [hf] at h; exact D.tokens_path h
  fails f e h := by
    simp only [env, known] at h
    cases hf : l.lookup f with
    | none => rw [hf] at h; cases h; exact .inl rfl
    | some s => rw [hf] at h; exact D.tokens_fails h

/-- What has been read is what there is. -/
def True (w : Files) (l : List (Text × Option Text)) : Prop := ∀ f s, l.lookup f = some s → s = D.source w f

/-- Runs on the known files compared with the run on all. -/
theorem known_asks {w : Files} {l : List (Text × Option Text)} (hl : D.True w l) (s0 s1 : Text → PErr) (root : Text) (n : Nat) :
    Asks (fun f => l.lookup f = none ∧ D.Needed root f) s0 s1 (run n (D.env (D.known l s0)) root) (run n (D.env (D.known l s1)) root)
      (run n (D.whole w) root) := by
  have key : ∀ f, D.Needed root f → Asks (fun f => l.lookup f = none ∧ D.Needed root f) s0 s1 (D.known l s0 f) (D.known l s1 f)
      (D.tokens f (D.source w f)) := by
    intro f hf
    unfold known
    cases h : l.lookup f with
    | none => exact .ask ⟨h, hf⟩
    | some s => rw [hl f s h]; exact .rfl
  exact run_asks (env := D.whole w) (key root (.inl rfl)) (fun c t g b h => key g (.inr ⟨c, t, b, h⟩)) n

mutual
theorem appendOut_congr {r r' : Text → Option Text} : ∀ (o : Out) (p : Processed.P), (∀ t ∈ o.every, r t.pos.path = r' t.pos.path) →
    Processed.appendOut r p o = Processed.appendOut r' p o
  | .direct t, p, h => by
    have := h t (by simp [Out.every])
    simp only [Processed.appendOut, Processed.appendToken, Processed.sourceOf, this]
  | .mac t l, p, h => by
    have h1 := h t (by simp [Out.every])
    have h2 := appendOutput_congr l p fun u hu => h u (by simp [Out.every, hu])
    simp only [Processed.appendOut, Processed.sourceOf, h1, h2]
theorem appendOutput_congr {r r' : Text → Option Text} : ∀ (l : List Out) (p : Processed.P),
    (∀ t ∈ Out.everyL l, r t.pos.path = r' t.pos.path) → Processed.appendOutput r p l = Processed.appendOutput r' p l
  | [], _, _ => rfl
  | o :: l, p, h => by
    simp only [Processed.appendOutput]
    rw [appendOut_congr o p fun t ht => h t (by simp [Out.everyL, ht])]
    split
    · rfl
    · exact appendOutput_congr l _ fun t ht => h t (by simp [Out.everyL, ht])
end

/-- The files of the output are among the known ones, when the run does not ask. -/
theorem out_known {w : Files} {l : List (Text × Option Text)} (hl : D.True w l) {root : Text} {n : Nat} {s0 : Text → PErr} {st : St}
    {buf : List Out} (h : run n (D.env (D.known l s0)) root = .ok (st, buf)) :
    ∀ t ∈ Out.everyL buf, ∃ s, l.lookup t.pos.path = some (some s) := by
  have hp : run n (D.env (D.known l fun _ => .panic)) root = .ok (st, buf) := by
    rcases D.known_asks hl s0 (fun _ => .panic) root n with ⟨h0, h1⟩ | ⟨f, _, h0, _⟩
    · rw [h1, ← h0, h]
    · rw [h] at h0; cases h0
  have hf := run_from (root := root) (D.known_own l) n
  rw [hp] at hf
  intro t ht
  obtain ⟨f, all, u, _, h2, h3, h4⟩ := hf.2 t ht
  have hpath : t.pos.path = f := by rw [← h4]; exact (D.known_own l).path f all h2 u h3
  rw [hpath]
  simp only [env, known] at h2
  cases hk : l.lookup f with
  | none => rw [hk] at h2; cases h2
  | some s =>
    rw [hk] at h2
    cases s with
    | none => cases h2
    | some s => exact ⟨s, rfl⟩

theorem finish_eq {K E : Type} {w : Files} {l : List (Text × Option Text)} (hl : D.True w l) {root : Text} {n : Nat} {s0 : Text → PErr}
    (code : Nat → Tok → More → K) (other : E) :
    finish code other (fun f => (l.lookup f).join) (run n (D.env (D.known l s0)) root) =
      finish code other (D.source w) (run n (D.env (D.known l s0)) root) := by
  cases h : run n (D.env (D.known l s0)) root with
  | error e => cases e <;> rfl
  | ok x =>
    obtain ⟨st, buf⟩ := x
    have : Processed.new (fun f => (l.lookup f).join) buf = Processed.new (D.source w) buf := by
      refine appendOutput_congr buf {} fun t ht => ?_
      obtain ⟨s, hs⟩ := D.out_known hl h t ht
      rw [hs, ← hl _ _ hs]
      rfl
    simp only [finish, this]

/-- How many files are not known yet. -/
def left (fs : List Text) (l : List (Text × Option Text)) : Nat := (fs.filter fun f => l.lookup f = none).length

theorem left_lt {fs : List Text} {l : List (Text × Option Text)} {f : Text} (hf : f ∈ fs) (hn : l.lookup f = none) (s : Option Text) :
    left fs ((f, s) :: l) < left fs l := by
  have hsub : ∀ g, (((f, s) :: l).lookup g = none) → l.lookup g = none := by
    intro g hg
    rw [List.lookup_cons] at hg
    split at hg
    · cases hg
    · exact hg
  unfold left
  have : fs.filter (fun g => ((f, s) :: l).lookup g = none) = (fs.filter fun g => l.lookup g = none).filter fun g => g ≠ f := by
    rw [List.filter_filter]
    refine List.filter_congr fun g _ => ?_
    rw [List.lookup_cons]
    by_cases hg : g = f
    · subst hg; simp
    · have : (g == f) = false := by simpa using hg
      simp [this, hg]
  rw [this]
  refine List.length_filter_lt_length_iff_exists.2 ⟨f, ?_, by simp⟩
  rw [List.mem_filter]
  exact ⟨hf, by simpa using hn⟩

theorem reading_run {K E : Type} {w : Files} {root : Text} {fs : List Text} (hfs : ∀ f, D.Needed root f → f ∈ fs)
    (code : Nat → Tok → More → K) (other : E) (n : Nat) : ∀ (m : Nat) (l : List (Text × Option Text)), D.True w l → left fs l < m →
      (D.reading code other n root m l).run w = finish code other (D.source w) (run n (D.whole w) root) ∧
      ∀ q ∈ (D.reading code other n root m l).reads w, ∃ f, D.Needed root f ∧ q = D.place f
  | 0, _, _, h => absurd h (Nat.not_lt_zero _)
  | m + 1, l, hl, hm => by
    rw [reading]
    rcases D.known_asks hl (ask 0) (ask 1) root n with ⟨h0, h1⟩ | ⟨f, ⟨hn, hf⟩, h0, h1⟩
    · have hfin := D.finish_eq hl (root := root) (n := n) (s0 := ask 0) code other
      rw [h1, ← h0]
      split
      · rename_i e1 e2
        rw [e1] at e2
        cases e2
      · rename_i r r' hr
        refine ⟨?_, by simp [Reading.reads]⟩
        rw [Reading.run]
        exact hfin
    · rw [h0, h1]
      have hl' : D.True w ((f, (w (D.place f)).bind D.decode) :: l) := by
        intro g s hg
        rw [List.lookup_cons] at hg
        split at hg
        · rename_i he
          obtain rfl : g = f := by simpa using he
          cases hg
          rfl
        · exact hl g s hg
      obtain ⟨k1, k2⟩ := reading_run hfs code other n m _ hl'
        (Nat.lt_of_lt_of_le (left_lt (hfs f hf) hn _) (Nat.le_of_lt_succ hm))
      refine ⟨k1, fun q hq => ?_⟩
      rcases List.mem_cons.1 hq with rfl | hq
      · exact ⟨f, hf, rfl⟩
      · exact k2 q hq

end Project

end Verif.Sources
