import Verif.Model.Root
import Verif.Spec.Expand

/-!
# A sample program

Used by the `example`s that show the hypotheses of the theorems to be satisfiable.

```
fn f() -> Result {
    #[hooq::method(.a($fn_name, $so_far))]
    let x = g(h?)?;
    #[hooq::skip]
    y?;
    let c = || -> Result {
        #[hooq::skip_all]
        { z?; }
        return Err(e);
    };
    m!(w?, 1);
    #[hooq::hook_in_macros(false)]
    m!(w?, 1);
    a[i?] = b?;
    return r;
    Err(t)
}
```
-/

namespace Hooq.Ex

/-- External functions of the sample. -/
def env : Env where
  consume := false
  insertRear := fun _ => some .whole
  replaceShape := fun _ _ => some .same
  parseNameValue := fun _ => none
  store := .ok (presetFlavors false [tkId "helpers"] ⟨true, true, true, true⟩)

/-- A position in the sample file. -/
def sp (l c : Nat) : Span := ⟨"src/a.rs", l, c⟩

/-- A path expression. -/
def var (x : String) (l : Nat) : Expr := .mk [] (sp l 1) (.path (.ofIdents [x]))

/-- `x?` -/
def quest (attrs : List Attr) (e : Expr) (l : Nat) : Expr := .mk attrs (sp l 1) (.try_ e (sp l 9))

/-- `f(x)` -/
def call (f : String) (args : List Expr) (l : Nat) : Expr := .mk [] (sp l 1) (.call (var f l) args)

/-- `Result` -/
def result : RetType := .path (.ofIdents ["Result"])

/-- The body of `m!(w?, 1)`. -/
def mac (l : Nat) : Mac :=
  .mk (.ofIdents ["m"]) .paren
    (.parsed [.expr (quest [] (var "w" l) l) .comma, .expr (.mk [] (sp l 8) (.lit (.int 1))) .none])

/-- `.a($fn_name, $so_far)` -/
def aMethod : List TT :=
  [tkP '.', tkId "a", tkParen (tkVar "fn_name" ++ [tkP ','] ++ tkVar "so_far")]

/-- The sample. -/
def item : Item :=
  .fn [] { ident := "f", output := result, text := "fn f () -> Result" }
    [.localInit [.list (hooqPath "method") aMethod] "x"
        (quest [] (call "g" [quest [] (var "h" 3) 3] 3) 3) none,
     .expr (quest [.path (hooqPath "skip")] (var "y" 5) 5) true,
     .localInit [] "c" (.mk [] (sp 6 1) (.closure { output := result, text := "|| -> Result {}" }
       (.mk [] (sp 6 9) (.block "" [
         .expr (.mk [.path (hooqPath "skip_all")] (sp 8 1)
           (.block "" [.expr (quest [] (var "z" 8) 8) true])) true,
         .expr (.mk [] (sp 9 1) (.ret (some (call "Err" [var "e" 9] 9)))) true])))) none,
     .mac [] (mac 11) true,
     .mac [.list (hooqPath "hook_in_macros") [tkId "false"]] (mac 13) true,
     .expr (.mk [] (sp 14 1) (.assign (.mk [] (sp 14 1) (.index (var "a" 14) (quest [] (var "i" 14) 14)))
       (quest [] (var "b" 14) 14))) true,
     .expr (.mk [] (sp 15 1) (.ret (some (var "r" 15)))) true,
     .expr (call "Err" [var "t" 16] 16) false]

/-- The root settings: the `default` preset. -/
def settings : Settings := defaultSettings false [tkId "helpers"]

/-- The sample after expansion. -/
def out : Item :=
  match hooqImpls env [] item with
  | .ok r => r.2
  | .error _ => item

set_option maxRecDepth 10000 in
theorem root_ok : rootSettings env [] = .ok settings := rfl

set_option maxRecDepth 10000 in
theorem out_ok : hooqImpls env [] item = .ok ([], out) := rfl

end Hooq.Ex
