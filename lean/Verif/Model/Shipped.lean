/-!
# Grammar files of the repository
-/

namespace Fmr

/-- grammars/number.zh.grammar:1-102, cut after each definition. -/
def numberZhParts : List String := [
  "<cn_unit> = \"一\" {nf.I(1)}\n\
    \x20         | \"二\" {nf.I(2)}\n\
    \x20         | \"三\" {nf.I(3)}\n\
    \x20         | \"四\" {nf.I(4)}\n\
    \x20         | \"五\" {nf.I(5)}\n\
    \x20         | \"六\" {nf.I(6)}\n\
    \x20         | \"七\" {nf.I(7)}\n\
    \x20         | \"八\" {nf.I(8)}\n\
    \x20         | \"九\" {nf.I(9)}\n\
    \x20         | \"壹\" {nf.I(1)}\n\
    \x20         | \"贰\" {nf.I(2)}\n\
    \x20         | \"叁\" {nf.I(3)}\n\
    \x20         | \"肆\" {nf.I(4)}\n\
    \x20         | \"伍\" {nf.I(5)}\n\
    \x20         | \"陆\" {nf.I(6)}\n\
    \x20         | \"柒\" {nf.I(7)}\n\
    \x20         | \"捌\" {nf.I(8)}\n\
    \x20         | \"玖\" {nf.I(9)}\n\
    \x20         | \"两\" {nf.I(2)}\n\
    \x20         | \"俩\" {nf.I(2)}\n\
    \x20         | \"仨\" {nf.I(3)}\n\
    \x20         ;\n",
  "\n\
<cn_zero> = \"零\" {nf.I(0)}\n\
    \x20         | \"〇\" {nf.I(0)}\n\
    \x20         ;\n",
  "\n\
\n\
<cn_digit> = <cn_unit> {nf.I($1)} | <cn_zero> {nf.I($1)} | <digits> {nf.I($1)};\n",
  "\n\
<numbers> = <cn_digit> {nf.I($1)}\n\
    \x20         | <cn_digit> <numbers> {nf.util.concat($1, $2)}\n\
    \x20         ;\n",
  "\n\
<cn_e1> = \"十\" {nf.I(10)}\n\
    \x20       | \"拾\" {nf.I(10)}\n\
    \x20       ;\n",
  "\n\
<cn_e2> = \"百\" {nf.I(100)}\n\
    \x20       | \"佰\" {nf.I(100)}\n\
    \x20       ;\n",
  "\n\
<cn_e3> = \"千\" {nf.I(1000)}\n\
    \x20       | \"仟\" {nf.I(1000)}\n\
    \x20       ;\n",
  "\n\
<cn_e4> = \"万\" {nf.I(10000)};\n",
  "\n\
<cn_e8> = \"亿\"   {nf.I(100000000)}\n\
    \x20       | \"万万\" {nf.I(100000000)}\n\
    \x20       ;\n",
  "\n\
<cn_e1s> = <cn_e1>                     {nf.I($1)}\n\
    \x20        | <cn_e1> <cn_unit>           {nf.math.sum($1,$2)}\n\
    \x20        | <cn_unit> <cn_e1>           {nf.math.mul($1, $2)}\n\
    \x20        | <cn_unit> <cn_e1> <cn_unit> {nf.math.sum(nf.math.mul($1, $2), $3)}\n\
    \x20        | <cn_unit>                   {nf.I($1)}\n\
    \x20        | <cn_zero>                   {nf.I($1)}\n\
    \x20        ;\n",
  "\n\
<cn_e2s> = <cn_unit> <cn_e2>                    {nf.math.mul($1, $2)}\n\
    \x20        | <cn_unit> <cn_e2> <cn_unit>          {nf.math.sum(nf.math.mul($1, $2), nf.math.mul(10,$3))}\n\
    \x20        | <cn_unit> <cn_e2> <cn_e1s>           {nf.math.sum(nf.math.mul($1, $2), $3)}\n\
    \x20        | <cn_unit> <cn_e2> <cn_zero> <cn_e1s> {nf.math.sum(nf.math.mul($1, $2), $4)}\n\
    \x20        | <cn_e1s>                             {nf.I($1)}\n\
    \x20        ;\n",
  "\n\
<cn_e3s> = <cn_unit> <cn_e3>                    {nf.math.mul($1, $2)}\n\
    \x20        | <cn_unit> <cn_e3> <cn_unit>          {nf.math.sum(nf.math.mul($1, $2), nf.math.mul(100,$3))}\n\
    \x20        | <cn_unit> <cn_e3> <cn_e2s>           {nf.math.sum(nf.math.mul($1, $2), $3)}\n\
    \x20        | <cn_unit> <cn_e3> <cn_zero> <cn_e2s> {nf.math.sum(nf.math.mul($1, $2), $4)}\n\
    \x20        | <cn_e2s>                             {nf.I($1)}\n\
    \x20        ;\n",
  "\n\
<cn_e4s> = <cn_e3s> <cn_e4>                    {nf.math.mul($1, $2)}\n\
    \x20        | <cn_e3s> <cn_e4> <cn_unit>          {nf.math.sum(nf.math.mul($1, $2), nf.math.mul(1000,$3))}\n\
    \x20        | <cn_e3s> <cn_e4> <cn_e3s>           {nf.math.sum(nf.math.mul($1, $2), $3)}\n\
    \x20        | <cn_e3s> <cn_e4> <cn_zero> <cn_e3s> {nf.math.sum(nf.math.mul($1, $2), $4)}\n\
    \x20        | <cn_e3s>                            {nf.I($1)}\n\
    \x20        | <numeric> <cn_e4>                   {nf.math.mul($1, $2)}\n\
    \x20        ;\n",
  "\n\
<cn_e8s> = <cn_e4s> <cn_e8>                    {nf.math.mul($1, $2)}\n\
    \x20        | <cn_e4s> <cn_e8> <cn_unit>          {nf.math.sum(nf.math.mul($1, $2), nf.math.mul(10000000,$3))}\n\
    \x20        | <cn_e4s> <cn_e8> <cn_e4s>           {nf.math.sum(nf.math.mul($1, $2), $3)}\n\
    \x20        | <cn_e4s> <cn_e8> <cn_zero> <cn_e4s> {nf.math.sum(nf.math.mul($1, $2), $4)}\n\
    \x20        | <cn_e4s>                            {nf.I($1)}\n\
    \x20        | <numeric> <cn_e8>                   {nf.math.mul($1, $2)}\n\
    \x20        ;\n",
  "\n\
<cn_decimal> = \"点\" <numbers> {nf.math.decimal($2)};\n",
  "\n\
<number> = <cn_e8s>              {nf.I($1)}\n\
    \x20        | <cn_decimal>          {nf.I($1)}\n\
    \x20        | <cn_e8s> <cn_decimal> {nf.math.sum($1,$2)}\n\
    \x20        ;\n",
  "\n\
<number> = <cn_e2> {nf.I($1)}\n\
    \x20        | <cn_e3> {nf.I($1)}\n\
    \x20        | <cn_e4> {nf.I($1)}\n\
    \x20        | <cn_e8> {nf.I($1)}\n\
    \x20        ;\n"]

/-- grammars/number.zh.grammar, the whole text. -/
def numberZh : List Char := (numberZhParts.map String.toList).flatten

end Fmr
