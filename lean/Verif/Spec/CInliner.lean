/-!
# Specification: the file that the inliner writes
-/

namespace CInliner

/-- What stands before the statements `__c("...");`. -/
def before : List Char :=
  "/* Created by tools/inliner - DO NOT EDIT. */
void __c(char *src) {
    for (int i = 0; src[i]; i++)
        source_push(SOURCE, src[i]);
}
void libc_generate() {
".toList

/-- What stands after them. -/
def behind : List Char := "}\n".toList

/-- The characters that a line needs in the file: itself, a backslash for each quote, and `  __c("`, `\n");` and a newline. -/
def lineSize (l : List Char) : Nat := l.length + l.count '"' + 13

end CInliner
