import Verif.Model.Shipped

/-!
# The other grammar files of the repository
-/

namespace Fmr

/-- grammars/math.zh.grammar:1-46, cut after each definition. -/
def mathZhParts : List String := [
  "/*\n\
    \x20* Author: Zhanliang Liu\n\
    \x20*/\n\n\
#include \"number.zh.grammar\"\n\n\
// for local grammars that come from regex tagger\n\
<number> = <numeric> {nf.math.to_number($1)};\n",
  "\n\
<number> = <number> \"打\" {nf.math.mul($1, 12)};\n",
  "\n\
<number> = <number> \"加\" <number>        {nf.math.sum($1,$3)}\n\
    \x20        | <number> \"加上\" <number>      {nf.math.sum($1,$3)}\n\
    \x20        | <number> \"与\" <number> \"的和\" {nf.math.sum($1,$3)}\n\
    \x20        ;\n",
  "\n\
<number> = <number> \"减\" <number>        {nf.math.sub($1,$3)}\n\
    \x20        | <number> \"减去\" <number>      {nf.math.sub($1,$3)}\n\
    \x20        | <number> \"与\" <number> \"的差\" {nf.math.sub($1,$3)}\n\
    \x20        ;\n",
  "\n\
<fraction> = <number> \"分之\" <number> {nf.math.div($3,$1)}\n\
    \x20          | <numeric> \"%\" {nf.math.div($1, 100)}\n\
    \x20          ;\n",
  "\n\
<number> = <number> \"乘\" <number>        {nf.math.mul($1,$3)}\n\
    \x20        | <number> \"乘以\" <number>      {nf.math.mul($1,$3)}\n\
    \x20        | <number> \"与\" <number> \"的积\" {nf.math.mul($1,$3)}\n\
    \x20        | <number> \"的\" <number> \"倍\"   {nf.math.mul($1,$3)}\n\
    \x20        | <number> \"的一半\"             {nf.math.mul($1,0.5)}\n\
    \x20        | <number> \"的\" <fraction>      {nf.math.mul($1,$3)}\n\
    \x20        ;\n",
  "\n\
<number> = <number> \"除\" <number>   {nf.math.div($3,$1)}\n\
    \x20        | <number> \"除以\" <number> {nf.math.div($1,$3)}\n\
    \x20        | <fraction>               {nf.I($1)}\n\
    \x20        ;\n",
  "\n\
<number> = <number> \"的\" <number> \"次方\" {nf.math.pow($1,$3)}\n\
    \x20        | <number> \"的\" <number> \"次幂\" {nf.math.pow($1,$3)}\n\
    \x20        | <number> \"的平方\"   {nf.math.pow($1,2)}\n\
    \x20        | <number> \"的立方\"   {nf.math.pow($1,3)}\n\
    \x20        | <number> \"的平方根\" {nf.math.pow($1,0.5)}\n\
    \x20        | <number> \"的立方根\" {nf.math.pow($1,nf.math.div(1,3))}\n\
    \x20        ;\n\n"]

/-- grammars/limit.grammar:1-12, cut after each definition. -/
def limitParts : List String := [
  "/*\n\
    \x20* Author: liang@zliu.org\n\
    \x20*/\n\n\
#include \"math.zh.grammar\"\n\n\
<limit_prefix> = \"前\";\n",
  "<limit_suffix> = \"个\";\n",
  "\n\
<limit> = <limit_prefix> <number> {nf.sql.limit($2)}\n\
    \x20       | <number> <limit_suffix> {nf.sql.limit($1)}\n\
    \x20       ;\n"]

/-- grammars/order.grammar:1-15, cut after each definition. -/
def orderParts : List String := [
  "/*\n\
    \x20* Author: liang@zliu.org\n\
    \x20*/\n\n\
// order by clause\n\n\
<asc> = \"从近到远\" | \"从少到多\" | \"从小到大\" | \"从慢到快\" | \"升序\" | \"排名最低\"\n\
    \x20     | \"最小\" | \"最少\" | \"最慢\";\n",
  "<desc> = \"从远到近\" | \"从多到少\" | \"从大到小\" | \"从快到慢\" | \"降序\" | \"排名最高\"\n\
    \x20      | \"最大\" | \"最多\" | \"最快\";\n",
  "<order_prefix> = \"按\" | \"获得\" | \"获得的\" | \"给出\" | \"根据\" | \"按照\" | \"依据\";\n",
  "\n\
<iorder> = <order_prefix> (any) <asc> {nf.sql.order($2,\"asc\")}\n\
    \x20       | <order_prefix> (any) <desc> {nf.sql.order($2,\"desc\")}\n\
    \x20       ;\n"]

/-- grammars/sql.grammar:1-9, cut after each definition. -/
def sqlParts : List String := [
  "#include \"order.grammar\"\n\
#include \"limit.grammar\"\n\n\
<order> = <iorder> {nf.I($1)}\n\
    \x20       | <iorder> <number> {nf.sql.mix(nf.I($1),nf.sql.limit($2))}\n\
    \x20       | <iorder> (any) <number> {nf.sql.mix(nf.I($1),nf.sql.limit($3))}\n\
    \x20       ;\n",
  "\n\
[sql] = <order> <limit> {nf.sql.gen($1,$2)};\n"]

/-- grammars/time.grammar:1-39, cut after each definition. -/
def timeParts : List String := [
  "#include \"math.zh.grammar\"\n\n\
<year> = <number> \"年\" {nf.datetime.year($1)}\n\
//       | <numbers> \"年\" {nf.datetime.year($1)}\n\
    \x20      ;\n",
  "<month> = <number> \"月\" {nf.datetime.month($1)};\n",
  "<day> = <number> \"日\" {nf.datetime.month($1)}\n\
    \x20     | <number> \"号\" {nf.datetime.month($1)};\n",
  "\n\n\
<date> = <year> <month> <day>\n\
    \x20      | <month> <day>\n\
    \x20      | <year> <month>\n\
    \x20      | <year> {nf.I($1)}\n\
    \x20      | <month> {nf.I($1)}\n\
    \x20      | <day> {nf.I($1)}\n\
    \x20      ;\n",
  "\n\
<time> = <date>; // tagger里面也会根据正则打标一些\n",
  "\n\
<before> = <time> \"前\"         {nf.sql.where(\"<\", $1)}\n\
    \x20        | <time> \"之前\"       {nf.sql.where(\"<\", $1)}\n\
    \x20        | <number> \"前\"       {nf.sql.where(\"<\", $1)}\n\
    \x20        | <number> \"之前\"     {nf.sql.where(\"<\", $1)}\n\
    \x20        | <time> \"及之前\"     {nf.sql.where(\"<=\", $1)}\n\
    \x20        | <time> \"及其之前\"   {nf.sql.where(\"<=\", $1)}\n\
    \x20        | <number> \"及之前\"   {nf.sql.where(\"<=\", $1)}\n\
    \x20        | <number> \"及其之前\" {nf.sql.where(\"<=\", $1)}\n\
    \x20        ;\n",
  "\n\
<after> = <time> \"后\"         {nf.sql.where(\">\", $1)}\n\
    \x20       | <time> \"之后\"       {nf.sql.where(\">\", $1)}\n\
    \x20       | <number> \"后\"       {nf.sql.where(\">\", $1)}\n\
    \x20       | <number> \"之后\"     {nf.sql.where(\">\", $1)}\n\
    \x20       | <time> \"及之后\"     {nf.sql.where(\">=\", $1)}\n\
    \x20       | <time> \"及其之后\"   {nf.sql.where(\">=\", $1)}\n\
    \x20       | <number> \"及之后\"   {nf.sql.where(\">=\", $1)}\n\
    \x20       | <number> \"及其之后\" {nf.sql.where(\">=\", $1)}\n\
    \x20       ;\n"]

/-- sf.grammar:1-23, cut after each definition. -/
def sfParts : List String := [
  "<flight> = <departure> <arrival> {nf.flight($1, $2)};\n",
  "[flight] = <arrival> <departure> {nf.flight($2, $1)};\n",
  "\n\
<departure> = <from> <city> {nf.I($2)};\n",
  "\n\
<arrival> = <to> <city> {nf.I($2)};\n",
  "[arrival] = <arrival> {nf.arrival($1)};\n",
  "\n\
<from> = \"从\" ;\n",
  "\n\
<to> = \"到\" | \"去\" | \"飞\"; \n",
  "\n\
<city> = \"北京\" {nf.I(\"BeiJing\")}\n\
    \x20      | \"天津\" {nf.I(\"TianJin\")}\n\
    \x20      | \"上海\" {nf.I(\"ShangHai\")}\n\
    \x20      | `.(?:城|都)`\n\
    \x20      ;\n",
  "\n\
<city_ext> = <city>            {nf.I($1)}\n\
    \x20          | (any{1,1}) <city> {nf.I($2)}\n\
    \x20          ;\n",
  "\n\
<cities> = \"直辖市：\" (list<city_ext>) {fmr.entity(@)};//{nf.I($2)};\n"]

/-- examples/arithmetic/arithmetic.grammar:1-31, cut after each definition. -/
def arithmeticParts : List String := [
  "<number> = \"one\"    {nf.I(1)}\n\
    \x20        | \"two\"    {nf.I(2)}\n\
    \x20        | \"three\"  {nf.I(3)}\n\
    \x20        | \"four\"   {nf.I(4)}\n\
    \x20        | \"five\"   {nf.I(5)}\n\
    \x20        | \"six\"    {nf.I(6)}\n\
    \x20        | \"seven\"  {nf.I(7)}\n\
    \x20        | \"eight\"  {nf.I(8)}\n\
    \x20        | \"nine\"   {nf.I(9)}\n\
    \x20        | \"ten\"    {nf.I(10)}\n\
    \x20        | \"一\"     {nf.I(1)}\n\
    \x20        | \"二\"     {nf.I(2)}\n\
    \x20        | \"三\"     {nf.I(3)}\n\
    \x20        | \"四\"     {nf.I(4)}\n\
    \x20        | \"五\"     {nf.I(5)}\n\
    \x20        | \"六\"     {nf.I(6)}\n\
    \x20        | \"七\"     {nf.I(7)}\n\
    \x20        | \"八\"     {nf.I(8)}\n\
    \x20        | \"九\"     {nf.I(9)}\n\
    \x20        | \"十\"     {nf.I(10)}\n\
    \x20        | <number> \"minus\" <number>        {nf.math.sub($1, $3)}\n\
    \x20        | <number> \"减\" <number>           {nf.math.sub($1, $3)}\n\
    \x20        | <number> \"plus\" <number>         {nf.math.sum($1, $3)}\n\
    \x20        | <number> \"add\" <number>          {nf.math.sum($1, $3)}\n\
    \x20        | <number> \"加\" <number>           {nf.math.sum($1, $3)}\n\
    \x20        | <number> \"times\" <number>        {nf.math.mul($1, $3)}\n\
    \x20        | <number> \"multiply by\" <number>  {nf.math.mul($1, $3)}\n\
    \x20        | <number> \"乘\" <number>           {nf.math.mul($1, $3)}\n\
    \x20        | \"minus\" <number>                 {nf.math.neg($2)}\n\
    \x20        | \"负\" <number>                    {nf.math.neg($2)};\n\n"]

/-- examples/builtin/builtin.grammar:1-103, cut after each definition. -/
def builtinParts : List String := [
  "<cardinal_unit> = \"zero\"  {nf.I(0)} | \"o\" {nf.I(0)}\n\
    \x20               | \"one\"   {nf.I(1)} | \"a\" {nf.I(1)} | \"an\" {nf.I(1)}\n\
    \x20               | \"two\"   {nf.I(2)}\n\
    \x20               | \"three\" {nf.I(3)}\n\
    \x20               | \"four\"  {nf.I(4)}\n\
    \x20               | \"five\"  {nf.I(5)}\n\
    \x20               | \"six\"   {nf.I(6)}\n\
    \x20               | \"seven\" {nf.I(7)}\n\
    \x20               | \"eight\" {nf.I(8)}\n\
    \x20               | \"nine\"  {nf.I(9)}\n\
    \x20               ;\n",
  "\n\
<cardinal_ten> = \"ten\"       {nf.I(10)}\n\
    \x20              | \"eleven\"    {nf.I(11)}\n\
    \x20              | \"twelve\"    {nf.I(12)}\n\
    \x20              | \"thirteen\"  {nf.I(13)}\n\
    \x20              | \"fourteen\"  {nf.I(14)}\n\
    \x20              | \"fifteen\"   {nf.I(15)}\n\
    \x20              | \"sixteen\"   {nf.I(16)}\n\
    \x20              | \"seventeen\" {nf.I(17)}\n\
    \x20              | \"eighteen\"  {nf.I(18)}\n\
    \x20              | \"nineteen\"  {nf.I(19)}\n\
    \x20              ;\n",
  "        \n\
<ordinal_unit> = \"first\"   {nf.I(1)}\n\
    \x20              | \"second\"  {nf.I(2)}\n\
    \x20              | \"third\"   {nf.I(3)}\n\
    \x20              | \"fourth\"  {nf.I(4)}\n\
    \x20              | \"fifth\"   {nf.I(5)}\n\
    \x20              | \"sixth\"   {nf.I(6)}\n\
    \x20              | \"seventh\" {nf.I(7)}\n\
    \x20              | \"eighth\"  {nf.I(8)}\n\
    \x20              | \"ninth\"   {nf.I(9)}\n\
    \x20              ;\n",
  "\n\
<ordinal_ten>  = \"tenth\"       {nf.I(10)}\n\
    \x20              | \"eleventh\"    {nf.I(11)}\n\
    \x20              | \"twelfth\"     {nf.I(12)}\n\
    \x20              | \"thirteenth\"  {nf.I(13)}\n\
    \x20              | \"fourteenth\"  {nf.I(14)}\n\
    \x20              | \"fifteenth\"   {nf.I(15)}\n\
    \x20              | \"sixteenth\"   {nf.I(16)}\n\
    \x20              | \"seventeenth\" {nf.I(17)}\n\
    \x20              | \"eighteenth\"  {nf.I(18)}\n\
    \x20              | \"nineteenth\"  {nf.I(19)}\n\
    \x20              ;\n",
  "\n\
<cardinal_tens> = \"twenty\"  {nf.I(20)}\n\
    \x20               | \"thirty\"  {nf.I(30)}\n\
    \x20               | \"forty\"   {nf.I(40)}\n\
    \x20               | \"fifty\"   {nf.I(50)}\n\
    \x20               | \"sixty\"   {nf.I(60)}\n\
    \x20               | \"seventy\" {nf.I(70)}\n\
    \x20               | \"eighty\"  {nf.I(80)}\n\
    \x20               | \"ninety\"  {nf.I(90)}\n\
    \x20               ;\n",
  "               \n\
<ordinal_tens> = \"twentieth\"  {nf.I(20)}\n\
    \x20              | \"thirtieth\"  {nf.I(30)}\n\
    \x20              | \"fortieth\"   {nf.I(40)}\n\
    \x20              | \"fiftieth\"   {nf.I(50)}\n\
    \x20              | \"sixtieth\"   {nf.I(60)}\n\
    \x20              | \"seventieth\" {nf.I(70)}\n\
    \x20              | \"eightieth\"  {nf.I(80)}\n\
    \x20              | \"ninetieth\"  {nf.I(90)}\n\
    \x20              ;\n",
  "\n\
<magnitude> = \"hundred\"     {nf.I(100)}\n\
    \x20           | \"thousand\"    {nf.I(1000)}\n\
    \x20           | \"million\"     {nf.I(1000000)}\n\
    \x20           | \"billion\"     {nf.I(1000000000)}\n\
    \x20           | \"trillion\"    {nf.I(1000000000000)}\n\
    \x20           | \"quadrillion\" {nf.I(1000000000000000)}\n\
    \x20           | \"quintillion\" {nf.I(1000000000000000000)}\n\
    \x20           | \"sextillion\"  {nf.I(1000000000000000000000)}\n\
    \x20           | \"septillion\"  {nf.I(1000000000000000000000000)}\n\
    \x20           | \"octillion\"   {nf.I(1000000000000000000000000000)}\n\
    \x20           | \"nonillion\"   {nf.I(1000000000000000000000000000000)}\n\
    \x20           | \"decillion\"   {nf.I(1000000000000000000000000000000000)}\n\
    \x20           ;\n",
  "\n\
<base_number> = <cardinal_unit>  {nf.I($1)}\n\
    \x20             | <cardinal_ten>   {nf.I($1)}\n\
    \x20             | <cardinal_tens>  {nf.I($1)}\n\
    \x20             | <cardinal_tens> <cardinal_unit> {nf.math.sum($1, $2)}\n\
    \x20             | <cardinal_tens> \"and\" <cardinal_unit> {nf.math.sum($1, $3)}\n\
    \x20             | <cardinal_tens> \"-\" <cardinal_unit> {nf.math.sum($1, $3)}\n\
    \x20             | <cardinal_tens> \",\" <cardinal_unit> {nf.math.sum($1, $3)}\n\
    \x20             ;\n",
  "\n\
<magnitude_number> = <base_number> <magnitude>      {nf.math.mul($1, $2)}\n\
    \x20                  | <base_number> \"-\" <magnitude>  {nf.math.mul($1, $3)}\n\
    \x20                  | <magnitude_number> <magnitude> {nf.math.mul($1, $2)}\n\
    \x20                  ;\n",
  "\n\
<section> = <magnitude_number> {nf.I($1)}\n\
    \x20         | <base_number> {nf.I($1)}\n\
    \x20         ;\n",
  "\n\
<number> = <section> {nf.I($1)}\n\
    \x20        | <section> <number> {nf.math.sum($1, $2)}\n\
    \x20        | <section> \"and\" <number> {nf.math.sum($1, $3)}\n\
    \x20        ;\n"]

/-- examples/builtin/cn_num.grammar:1-54, cut after each definition. -/
def cnNumParts : List String := [
  "<cn_num_unit> = \"一\" {nf.I(1)}\n\
    \x20             | \"二\" {nf.I(2)}\n\
    \x20             | \"三\" {nf.I(3)}\n\
    \x20             | \"四\" {nf.I(4)}\n\
    \x20             | \"五\" {nf.I(5)}\n\
    \x20             | \"六\" {nf.I(6)}\n\
    \x20             | \"七\" {nf.I(7)}\n\
    \x20             | \"八\" {nf.I(8)}\n\
    \x20             | \"九\" {nf.I(9)}\n\
    \x20             ;\n",
  "\n\
<cn_zero> = \"零\" {nf.I(0)}\n\
    \x20         | \"〇\" {nf.I(0)}\n\
    \x20         ;\n",
  "\n\
<cn_num_10> = \"十\"        {nf.I(10)};\n",
  "<cn_num_100> = \"百\"       {nf.I(100)};\n",
  "<cn_num_1000> = \"千\"      {nf.I(1000)};\n",
  "\n\
<cn_num_10000> = \"万\"     {nf.I(10000)};\n",
  "<cn_num_100000000> = \"亿\" {nf.I(100000000)};\n",
  "\n\
<cn_num_10s> = <cn_num_10>                             {nf.I($1)}\n\
    \x20            | <cn_num_unit> <cn_num_10>               {nf.math.mul($1, $2)}\n\
    \x20            | <cn_num_unit> <cn_num_10> <cn_num_unit> {nf.math.sum(nf.math.mul($1, $2), $3)}\n\
    \x20            | <cn_num_unit>                           {nf.I($1)}\n\
    \x20            ;\n",
  "\n\
<cn_num_100s> = <cn_num_unit> <cn_num_100>                         {nf.math.mul($1, $2)}\n\
    \x20             | <cn_num_unit> <cn_num_100> <cn_num_10s>            {nf.math.sum(nf.math.mul($1, $2), $3)}\n\
    \x20             | <cn_num_unit> <cn_num_100> <cn_zero> <cn_num_unit> {nf.math.sum(nf.math.mul($1, $2), $4)}\n\
    \x20             | <cn_num_10s>                                       {nf.I($1)}\n\
    \x20             ;\n",
  "\n\
<cn_num_1000s> = <cn_num_unit> <cn_num_1000>                         {nf.math.mul($1, $2)}\n\
    \x20              | <cn_num_unit> <cn_num_1000> <cn_num_100s>           {nf.math.sum(nf.math.mul($1, $2), $3)}\n\
    \x20              | <cn_num_unit> <cn_num_1000> <cn_zero> <cn_num_unit> {nf.math.sum(nf.math.mul($1, $2), $4)}\n\
    \x20              | <cn_num_unit> <cn_num_1000> <cn_zero> <cn_num_10s>  {nf.math.sum(nf.math.mul($1, $2), $4)}\n\
    \x20              | <cn_num_100s>                                       {nf.I($1)}\n\
    \x20              ;\n",
  "\n\
<cn_num_10000s> = <cn_num_1000s> <cn_num_10000>                {nf.math.mul($1, $2)}\n\
    \x20               | <cn_num_1000s> <cn_num_10000> <cn_num_1000s> {nf.math.sum(nf.math.mul($1, $2), $3)}\n\
    \x20               | <cn_num_1000s>                               {nf.I($1)}\n\
    \x20               ;\n",
  "\n\
<cn_num_yi> = <cn_num_10000s> <cn_num_100000000>                           {nf.math.mul($1, $2)}\n\
    \x20           | <cn_num_10000s> <cn_num_100000000> <cn_num_10000s>           {nf.math.sum(nf.math.mul($1, $2), $3)}\n\
    \x20           | <cn_num_10000s> <cn_num_100000000> <cn_zero> <cn_num_10000s> {nf.math.sum(nf.math.mul($1, $2), $4)}\n\
    \x20           | <cn_num_10000s>                                              {nf.I($1)}\n\
    \x20           ;\n",
  "\n\
<number> = <cn_num_yi> {nf.I($1)};\n\n"]

/-- examples/builtin/any.grammar:1-14, cut after each definition. -/
def anyParts : List String := [
  "<company> = <location> (any) \"有限公司\"                {nf.company($1,$2,$3)}\n\
    \x20         | <location> (any) <area> \"有限公司\"         {nf.company($1,$2,$4,$3)}\n\
    \x20         | (any) \"(\" <location> \")\" \"有限公司\"        {nf.company($3,$1,$5)}\n\
    \x20         | (any) <area> \"(\" <location> \")\" \"有限公司\" {nf.company($4,$1,$6,$2)}\n\
    \x20         ;\n",
  "<location> = \"北京\" {nf.I(\"beijing\")}\n\
    \x20          | \"天津\" {nf.I(\"tianjin\")}\n\
    \x20          | \"上海\" {nf.I(\"shanghai\")}\n\
    \x20          ;\n",
  "\n\
<area> = \"科技\"\n\
    \x20      | \"网络技术\"\n\
    \x20      | \"计算机技术\"\n\
    \x20      ;\n"]

/-- examples/math/grammars/number.zh.grammar:1-99, cut after each definition. -/
def exNumberZhParts : List String := [
  "<cn_unit> = \"一\" {nf.I(1)}\n\
    \x20         | \"二\" {nf.I(2)}\n\
    \x20         | \"三\" {nf.I(3)}\n\
    \x20         | \"四\" {nf.I(4)}\n\
    \x20         | \"五\" {nf.I(5)}\n\
    \x20         | \"六\" {nf.I(6)}\n\
    \x20         | \"七\" {nf.I(7)}\n\
    \x20         | \"八\" {nf.I(8)}\n\
    \x20         | \"九\" {nf.I(9)}\n\
    \x20         | \"壹\" {nf.I(1)}\n\
    \x20         | \"贰\" {nf.I(2)}\n\
    \x20         | \"叁\" {nf.I(3)}\n\
    \x20         | \"肆\" {nf.I(4)}\n\
    \x20         | \"伍\" {nf.I(5)}\n\
    \x20         | \"陆\" {nf.I(6)}\n\
    \x20         | \"柒\" {nf.I(7)}\n\
    \x20         | \"捌\" {nf.I(8)}\n\
    \x20         | \"玖\" {nf.I(9)}\n\
    \x20         | \"两\" {nf.I(2)}\n\
    \x20         | \"俩\" {nf.I(2)}\n\
    \x20         | \"仨\" {nf.I(3)}\n\
    \x20         ;\n",
  "\n\
<cn_zero> = \"零\" {nf.I(0)}\n\
    \x20         | \"〇\" {nf.I(0)}\n\
    \x20         ;\n",
  "\n\
<cn_digit> = <cn_unit> {nf.I($1)} | <cn_zero> {nf.I($1)} | <digits> {nf.I($1)};\n",
  "\n\
<numbers> = <cn_digit> {nf.I($1)}\n\
    \x20         | <cn_digit> <numbers> {nf.util.concat($1, $2)}\n\
    \x20         ;\n",
  "\n\
<cn_e1> = \"十\" {nf.I(10)}\n\
    \x20       | \"拾\" {nf.I(10)}\n\
    \x20       ;\n",
  "\n\
<cn_e2> = \"百\" {nf.I(100)}\n\
    \x20       | \"佰\" {nf.I(100)}\n\
    \x20       ;\n",
  "\n\
<cn_e3> = \"千\" {nf.I(1000)}\n\
    \x20       | \"仟\" {nf.I(1000)}\n\
    \x20       ;\n",
  "\n\
<cn_e4> = \"万\" {nf.I(10000)};\n",
  "\n\
<cn_e8> = \"亿\"   {nf.I(100000000)}\n\
    \x20       | \"万万\" {nf.I(100000000)}\n\
    \x20       ;\n",
  "\n\
<cn_e1s> = <cn_e1>                     {nf.I($1)}\n\
    \x20        | <cn_e1> <cn_unit>           {nf.math.sum($1,$2)}\n\
    \x20        | <cn_unit> <cn_e1>           {nf.math.mul($1, $2)}\n\
    \x20        | <cn_unit> <cn_e1> <cn_unit> {nf.math.sum(nf.math.mul($1, $2), $3)}\n\
    \x20        | <cn_unit>                   {nf.I($1)}\n\
    \x20        | <cn_zero>                   {nf.I($1)}\n\
    \x20        ;\n",
  "\n\
<cn_e2s> = <cn_unit> <cn_e2>                    {nf.math.mul($1, $2)}\n\
    \x20        | <cn_unit> <cn_e2> <cn_unit>          {nf.math.sum(nf.math.mul($1, $2), nf.math.mul(10,$3))}\n\
    \x20        | <cn_unit> <cn_e2> <cn_e1s>           {nf.math.sum(nf.math.mul($1, $2), $3)}\n\
    \x20        | <cn_unit> <cn_e2> <cn_zero> <cn_e1s> {nf.math.sum(nf.math.mul($1, $2), $4)}\n\
    \x20        | <cn_e1s>                             {nf.I($1)}\n\
    \x20        ;\n",
  "\n\
<cn_e3s> = <cn_unit> <cn_e3>                    {nf.math.mul($1, $2)}\n\
    \x20        | <cn_unit> <cn_e3> <cn_unit>          {nf.math.sum(nf.math.mul($1, $2), nf.math.mul(100,$3))}\n\
    \x20        | <cn_unit> <cn_e3> <cn_e2s>           {nf.math.sum(nf.math.mul($1, $2), $3)}\n\
    \x20        | <cn_unit> <cn_e3> <cn_zero> <cn_e2s> {nf.math.sum(nf.math.mul($1, $2), $4)}\n\
    \x20        | <cn_e2s>                             {nf.I($1)}\n\
    \x20        ;\n",
  "\n\
<cn_e4s> = <cn_e3s> <cn_e4>                    {nf.math.mul($1, $2)}\n\
    \x20        | <cn_e3s> <cn_e4> <cn_unit>          {nf.math.sum(nf.math.mul($1, $2), nf.math.mul(1000,$3))}\n\
    \x20        | <cn_e3s> <cn_e4> <cn_e3s>           {nf.math.sum(nf.math.mul($1, $2), $3)}\n\
    \x20        | <cn_e3s> <cn_e4> <cn_zero> <cn_e3s> {nf.math.sum(nf.math.mul($1, $2), $4)}\n\
    \x20        | <cn_e3s>                            {nf.I($1)}\n\
    \x20        ;\n",
  "\n\
<cn_e8s> = <cn_e4s> <cn_e8>                    {nf.math.mul($1, $2)}\n\
    \x20        | <cn_e4s> <cn_e8> <cn_unit>          {nf.math.sum(nf.math.mul($1, $2), nf.math.mul(10000000,$3))}\n\
    \x20        | <cn_e4s> <cn_e8> <cn_e4s>           {nf.math.sum(nf.math.mul($1, $2), $3)}\n\
    \x20        | <cn_e4s> <cn_e8> <cn_zero> <cn_e4s> {nf.math.sum(nf.math.mul($1, $2), $4)}\n\
    \x20        | <cn_e4s>                            {nf.I($1)}\n\
    \x20        ;\n",
  "\n\
<cn_decimal> = \"点\" <numbers> {nf.math.decimal($2)};\n",
  "\n\
<number> = <cn_e8s>              {nf.I($1)}\n\
    \x20        | <cn_decimal>          {nf.I($1)}\n\
    \x20        | <cn_e8s> <cn_decimal> {nf.math.sum($1,$2)}\n\
    \x20        ;\n",
  "\n\
<number> = <cn_e2> {nf.I($1)}\n\
    \x20        | <cn_e3> {nf.I($1)}\n\
    \x20        | <cn_e4> {nf.I($1)}\n\
    \x20        | <cn_e8> {nf.I($1)}\n\
    \x20        ;\n"]

/-- examples/math/grammars/math.zh.grammar:1-45, cut after each definition. -/
def exMathZhParts : List String := [
  "/*\n\
    \x20* Author: Zhanliang Liu\n\
    \x20*/\n\n\
#include \"number.zh.grammar\"\n\n\
// for local grammars that come from regex tagger\n\
<number> = <numeric> {nf.math.to_number($1)};\n",
  "\n\
<number> = <number> \"打\" {nf.math.mul($1, 12)};\n",
  "\n\
<number> = <number> \"加\" <number>        {nf.math.sum($1,$3)}\n\
    \x20        | <number> \"加上\" <number>      {nf.math.sum($1,$3)}\n\
    \x20        | <number> \"与\" <number> \"的和\" {nf.math.sum($1,$3)}\n\
    \x20        ;\n",
  "\n\
<number> = <number> \"减\" <number>        {nf.math.sub($1,$3)}\n\
    \x20        | <number> \"减去\" <number>      {nf.math.sub($1,$3)}\n\
    \x20        | <number> \"与\" <number> \"的差\" {nf.math.sub($1,$3)}\n\
    \x20        ;\n",
  "\n\
<fraction> = <number> \"分之\" <number> {nf.math.div($3,$1)}\n\
    \x20          ;\n",
  "\n\
<number> = <number> \"乘\" <number>        {nf.math.mul($1,$3)}\n\
    \x20        | <number> \"乘以\" <number>      {nf.math.mul($1,$3)}\n\
    \x20        | <number> \"与\" <number> \"的积\" {nf.math.mul($1,$3)}\n\
    \x20        | <number> \"的\" <number> \"倍\"   {nf.math.mul($1,$3)}\n\
    \x20        | <number> \"的一半\"             {nf.math.mul($1,0.5)}\n\
    \x20        | <number> \"的\" <fraction>      {nf.math.mul($1,$3)}\n\
    \x20        ;\n",
  "\n\
<number> = <number> \"除\" <number>   {nf.math.div($3,$1)}\n\
    \x20        | <number> \"除以\" <number> {nf.math.div($1,$3)}\n\
    \x20        | <fraction>               {nf.I($1)}\n\
    \x20        ;\n",
  "\n\
<number> = <number> \"的\" <number> \"次方\" {nf.math.pow($1,$3)}\n\
    \x20        | <number> \"的\" <number> \"次幂\" {nf.math.pow($1,$3)}\n\
    \x20        | <number> \"的平方\"   {nf.math.pow($1,2)}\n\
    \x20        | <number> \"的立方\"   {nf.math.pow($1,3)}\n\
    \x20        | <number> \"的平方根\" {nf.math.pow($1,0.5)}\n\
    \x20        | <number> \"的立方根\" {nf.math.pow($1,nf.math.div(1,3))}\n\
    \x20        ;\n\n"]

/-- examples/math/grammars/number.en.grammar:1-98, cut after each definition. -/
def numberEnParts : List String := [
  "<unit> = \"zero\"  {nf.I(0)}\n\
    \x20      | \"one\"   {nf.I(1)}\n\
    \x20      | \"two\"   {nf.I(2)}\n\
    \x20      | \"three\" {nf.I(3)}\n\
    \x20      | \"four\"  {nf.I(4)}\n\
    \x20      | \"five\"  {nf.I(5)}\n\
    \x20      | \"six\"   {nf.I(6)}\n\
    \x20      | \"seven\" {nf.I(7)}\n\
    \x20      | \"eight\" {nf.I(8)}\n\
    \x20      | \"nine\"  {nf.I(9)}\n\
    \x20      ;\n",
  "\n\
<numbers> = <unit>           {nf.I($1)}\n\
    \x20         | <unit> <numbers> {nf.util.concat($1,$2)}\n\
    \x20         ;\n",
  "\n\
<ten> = \"ten\"       {nf.I(10)}\n\
    \x20     | \"eleven\"    {nf.I(11)}\n\
    \x20     | \"twelve\"    {nf.I(12)}\n\
    \x20     | \"thirteen\"  {nf.I(13)}\n\
    \x20     | \"fourteen\"  {nf.I(14)}\n\
    \x20     | \"fifteen\"   {nf.I(15)}\n\
    \x20     | \"sixteen\"   {nf.I(16)}\n\
    \x20     | \"seventeen\" {nf.I(17)}\n\
    \x20     | \"eighteen\"  {nf.I(18)}\n\
    \x20     | \"nineteen\"  {nf.I(19)}\n\
    \x20     ;\n",
  "\n\
<tens> = \"twenty\"  {nf.I(20)}\n\
    \x20      | \"thirty\"  {nf.I(30)}\n\
    \x20      | \"forty\"   {nf.I(40)}\n\
    \x20      | \"fifty\"   {nf.I(50)}\n\
    \x20      | \"sixty\"   {nf.I(60)}\n\
    \x20      | \"seventy\" {nf.I(70)}\n\
    \x20      | \"eighty\"  {nf.I(80)}\n\
    \x20      | \"ninety\"  {nf.I(90)}\n\
    \x20      ;\n",
  "\n\
<e1> = <unit> {nf.I($1)}\n\
    \x20    | <ten>  {nf.I($1)}\n\
    \x20    | <tens> {nf.I($1)}\n\
    \x20    | <tens> <unit>     {nf.math.sum($1,$2)}\n\
    \x20    | <tens> \"-\" <unit> {nf.math.sum($1,$3)}\n\
    \x20    ;\n",
  "\n\
<e2>  = \"hundred\"  {nf.I(100)};\n",
  "<e3>  = \"thousand\" {nf.I(1000)};\n",
  "<e6>  = \"million\"  {nf.I(1000000)};\n",
  "<e9>  = \"billion\"  {nf.I(1000000000)};\n",
  "<e12> = \"trillion\" {nf.I(1000000000000)};\n",
  "\n\
<e2s> = <e1> {nf.I($1)}\n\
    \x20     | <e2> {nf.I($1)}\n\
    \x20     | <e1> <e2> {nf.math.mul($1,$2)}\n\
    \x20     | <e1> <e2> <e1>       {nf.math.sum(nf.math.mul($1,$2),$3)}\n\
    \x20     | <e1> <e2> \"and\" <e1> {nf.math.sum(nf.math.mul($1,$2),$4)}\n\
    \x20     ;\n",
  "\n\
<e3s> = <e2s> {nf.I($1)}\n\
    \x20     | <e3>  {nf.I($1)}\n\
    \x20     | <e2s> <e3> {nf.math.mul($1,$2)}\n\
    \x20     | <e2s> <e3> <e2s> {nf.math.sum(nf.math.mul($1,$2),$3)}\n\
    \x20     | <e2s> <e3> \"and\" <e2s> {nf.math.sum(nf.math.mul($1,$2),$4)}\n\
    \x20     ;\n",
  "\n\
<e6s> = <e3s> {nf.I($1)}\n\
    \x20     | <e6>  {nf.I($1)}\n\
    \x20     | <e3s> <e6> {nf.math.mul($1,$2)}\n\
    \x20     | <e3s> <e6> <e3s> {nf.math.sum(nf.math.mul($1,$2),$3)}\n\
    \x20     | <e3s> <e6> \"and\" <e3s> {nf.math.sum(nf.math.mul($1,$2),$4)}\n\
    \x20     ;\n",
  "\n\
<e9s> = <e6s> {nf.I($1)}\n\
    \x20     | <e9>  {nf.I($1)}\n\
    \x20     | <e6s> <e9> {nf.math.mul($1,$2)}\n\
    \x20     | <e6s> <e9> <e6s> {nf.math.sum(nf.math.mul($1,$2),$3)}\n\
    \x20     | <e6s> <e9> \"and\" <e6s> {nf.math.sum(nf.math.mul($1,$2),$4)}\n\
    \x20     ;\n",
  "\n\
<e12s> = <e9s>  {nf.I($1)}\n\
    \x20      | <e12>  {nf.I($1)}\n\
    \x20      | <e9s> <e12> {nf.math.mul($1,$2)}\n\
    \x20      | <e9s> <e12> <e9s> {nf.math.sum(nf.math.mul($1,$2),$3)}\n\
    \x20      | <e9s> <e12> \"and\" <e9s> {nf.math.sum(nf.math.mul($1,$2),$4)}\n\
    \x20      ;\n",
  "\n\
<en_decimal> = \"point\" <numbers> {nf.math.decimal($2)};\n",
  "\n\
<en_number> = <e12s> {nf.I($1)};\n",
  "\n\
<number> = <en_number> {nf.I($1)}\n\
    \x20        | <en_decimal> {nf.I($1)}\n\
    \x20        | <en_number> <en_decimal> {nf.math.sum($1,$2)}\n\
    \x20        | <en_number> \"and\" <en_decimal> {nf.math.sum($1,$3)}\n\
    \x20        ;\n\n\
//<number> = <number> <e3> {nf.math.mul($1,$2)};\n\
//<number> = <number> <e6> {nf.math.mul($1,$2)};\n"]

/-- examples/math/grammars/math.en.grammar:1-55, cut after each definition. -/
def mathEnParts : List String := [
  "/*\n\
    \x20* Author: Zhanliang Liu\n\
    \x20*/\n\n\
#include \"number.en.grammar\"\n\n\
// for local grammars that come from regex tagger\n\
<number> = <numeric> {nf.math.to_number($1)};\n",
  "\n\
<special_number> = \"pair\"    {nf.I(2)}\n\
    \x20                | \"couple\"  {nf.I(2)}\n\
    \x20                | \"dozen\"   {nf.I(12)}\n\
    \x20                | \"percent\" {nf.I(0.01)}\n\
    \x20                ;\n",
  "<number> = <special_number>          {nf.I($1)}\n\
    \x20        | <number> <special_number> {nf.math.mul($1,$2)}\n\
    \x20        ;\n",
  "\n\
<number> = <number> \"plus\" <number>         {nf.math.sum($1,$3)}\n\
    \x20        | <number> \"added to\" <number>     {nf.math.sum($3, $1)}\n\
    \x20        | \"sum of\" <number> \"and\" <number> {nf.math.sum($2,$4)}\n\
    \x20        | \"the sum of\" <number> \"and\" <number> {nf.math.sum($2,$4)}\n\
    \x20        ;\n",
  "\n\
<number> = <number> \"minus\" <number>           {nf.math.sub($1,$3)}\n\
    \x20        | \"subtract\" <number> \"from\" <number> {nf.math.sub($4,$2)}\n\
    \x20        | \"deduct\" <number> \"from\" <number>   {nf.math.sub($4,$2)}\n\
    \x20        | <number> \"subtracted from\" <number> {nf.math.sub($3,$1)}\n\
    \x20        ;\n",
  "\n\
<number> = <number> \"divides\" <number>    {nf.math.div($3,$1)}\n\
    \x20        | <number> \"divided by\" <number> {nf.math.div($1,$3)}\n\
    \x20        | <number> \"over\" <number>       {nf.math.div($1,$3)}\n\
    \x20        ;\n",
  "\n\
<number> = <number> \"times\" <number>            {nf.math.mul($1,$3)}\n\
    \x20        | <number> \"multiply by\" <number>      {nf.math.mul($1,$3)}\n\
    \x20        | \"multiply\" <number> \"by\" <number>    {nf.math.mul($2,$4)}\n\
    \x20        | \"product of\" <number> \"and\" <number> {nf.math.mul($2,$4)}\n\
    \x20        | \"half of\" <number>                   {nf.math.mul($2,0.5)}\n\
    \x20        ;\n",
  "\n\
<number> = <number> \"raised to the power of\" <number>    {nf.math.pow($1,$3)}\n\
    \x20        | <number> \"raised to the exponent of\" <number> {nf.math.pow($1,$3)}\n\
    \x20        | \"square of\" <number>      {nf.math.pow($2,2)}\n\
    \x20        | \"cube of\" <number>        {nf.math.pow($2,3)}\n\
    \x20        | \"square root of\" <number> {nf.math.pow($2,0.5)}\n\
    \x20        | \"cubic root of\" <number>  {nf.math.pow($2,nf.math.div(1,3))}\n\
    \x20        ;\n",
  "\n\
<equ> = <number> \"be equal to\" <number> {vf.be.equ($1,$2)}\n\
    \x20     | <number> \"equal\" <number>       {vf.be.equ($1,$2)}\n\
    \x20     | <number> \"be\" <number>          {vf.be.equ($1,$2)}\n\
    \x20     ;\n\n"]

/-- examples/math/grammars/math.grammar:1-29, cut after each definition. -/
def mathParts : List String := [
  "#include \"math.en.grammar\"\n\
#include \"math.zh.grammar\"\n\n\
<Exp> = <AddExp> {nf.I($1)};\n",
  "\n\
<AddExp> = <AddExp> \"+\" <MulExp> {nf.math.sum($1,$3)}\n\
    \x20        | <AddExp> \"-\" <MulExp> {nf.math.sub($1,$3)}\n\
    \x20        | <MulExp> {nf.I($1)}\n\
    \x20        ;\n",
  "\n\
<MulExp> = <MulExp> \"*\" <ExpExp> {nf.math.mul($1,$3)}\n\
    \x20        | <MulExp> \"×\" <ExpExp> {nf.math.mul($1,$3)}\n\
    \x20        | <MulExp> \"/\" <ExpExp> {nf.math.div($1,$3)}\n\
    \x20        | <MulExp> \"÷\" <ExpExp> {nf.math.div($1,$3)}\n\
    \x20        | <ExpExp> {nf.I($1)}\n\
    \x20        ;\n",
  "\n\
<ExpExp> = <PriExp> \"^\" <ExpExp>  {nf.math.pow($1,$3)}\n\
    \x20        | <PriExp> \"**\" <ExpExp> {nf.math.pow($1,$3)}\n\
    \x20        | <PriExp> {nf.I($1)}\n\
    \x20        ;\n",
  "\n\
<PriExp> = \"\\(\" <Exp> \")\" {nf.I($2)}\n\
    \x20        | \"+\" <PriExp> {nf.I($2)}\n\
    \x20        | \"-\" <PriExp> {nf.math.neg($2)}\n\
    \x20        | <number> {nf.I($1)}\n\
    \x20        | <letters> {nf.math.expression($1)}\n\
    \x20        ;\n\n"]

/-- examples/math/grammars/latex.math.grammar:1-53, cut after each definition. -/
def latexParts : List String := [
  "<Exp> = <AddExp> {nf.I($1)};\n",
  "\n\
<AddExp> = <AddExp> \"+\" <MulExp> {nf.math.sum($1,$3)}\n\
    \x20        | <AddExp> \"-\" <MulExp> {nf.math.sub($1,$3)}\n\
    \x20        | <MulExp> {nf.I($1)}\n\
    \x20        ;\n",
  "\n\
<MulExp> = <MulExp> \"*\" <ExpExp> {nf.math.mul($1,$3)}\n\
    \x20        | <MulExp> \"×\" <ExpExp> {nf.math.mul($1,$3)}\n\
    \x20        | <MulExp> \"\\\\times\" <ExpExp> {nf.math.mul($1,$3)}\n\
    \x20        | <MulExp> <ExpExp>     {nf.math.mul($1,$2)}\n\
    \x20        | <MulExp> \"/\" <ExpExp> {nf.math.div($1,$3)}\n\
    \x20        | <MulExp> \"÷\" <ExpExp> {nf.math.div($1,$3)}\n\
    \x20        | \"\\\\frac\" \"{\" <Exp> \"}\" \"{\" <Exp> \"}\" {nf.math.div($3,$6)}\n\
    \x20        | <ExpExp> {nf.I($1)}\n\
    \x20        ;\n",
  "\n\
<ExpExp> = <PriExp> \"^\" <ExpExp>  {nf.math.pow($1,$3)}\n\
    \x20        | <PriExp> \"**\" <ExpExp> {nf.math.pow($1,$3)}\n\
    \x20        | \"\\\\sqrt\" \"{\" <Exp> \"}\" {nf.math.pow($3,0.5)}\n\
    \x20        | <PriExp> {nf.I($1)}\n\
    \x20        ;\n",
  "\n\
<SignExp> = \"+\" <PriExp> {nf.I($2)}\n\
    \x20         ;\n",
  "\n\
<PriExp> = \"\\(\" <Exp> \")\" {nf.I($2)}\n\
    \x20        | \"{\" <Exp> \"}\" {nf.I($2)}\n\
    \x20        | \"|\" <Exp> \"|\" {nf.math.abs($2)}\n\
    \x20        | <numeric> {nf.math.to_number($1)}\n\
    \x20        | <letters> {nf.math.expression($1)}\n\
    \x20        ;\n",
  "\n\
<VerbExp> = <Exp> \"=\" <Exp> {vf.be.eq($1,$3)}\n\
    \x20         | <Exp> \"\\\\neq\" <Exp> {vf.be.neq($1,$3)}\n\
    \x20         | <Exp> \"≠\" <Exp> {vf.be.neq($1,$3)}\n\
    \x20         | <Exp> \">\" <Exp> {vf.be.gt($1,$3)}\n\
    \x20         | <Exp> \"≥\" <Exp> {vf.be.geq($1,$3)}\n\
    \x20         | <Exp> \"\\\\geq\" <Exp> {vf.be.geq($1,$3)}\n\
    \x20         | <Exp> \"<\" <Exp> {vf.be.lt($1,$3)}\n\
    \x20         | <Exp> \"≤\" <Exp> {vf.be.leq($1,$3)}\n\
    \x20         | <Exp> \"\\\\leq\" <Exp> {vf.be.leq($1,$3)}\n\
    \x20         | <Exp> \"\\\\ \" <letters> <Exp> {nf.math.op($3,$1,$4)}\n\
    \x20         ;\n",
  "\n\
<Func> = \"f\"|\"g\";\n",
  "\n\
<Exp> = <Func> \"\\(\" <Exp> \")\" {nf.math.func($1,$3)};\n",
  "\n\n\
<start> = <VerbExp> {nf.I($1)}\n\
    \x20       | <Exp> {nf.I($1)}\n\
    \x20       ;\n"]

/-- A grammar file of the repository: its folder (relative to the root of the repository), its name, its text in parts. -/
structure ShippedFile where
  dir : String
  name : String
  parts : List String

/-- the text of a file -/
def ShippedFile.text (f : ShippedFile) : List Char := (f.parts.map String.toList).flatten

/-- examples/builtin/any.grammar -/
def anyFile : ShippedFile := ⟨"examples/builtin", "any.grammar", anyParts⟩

/-- the grammar files of the repository except that one -/
def goodFiles : List ShippedFile := [
  ⟨"grammars", "number.zh.grammar", numberZhParts⟩,
  ⟨"grammars", "math.zh.grammar", mathZhParts⟩,
  ⟨"grammars", "limit.grammar", limitParts⟩,
  ⟨"grammars", "order.grammar", orderParts⟩,
  ⟨"grammars", "sql.grammar", sqlParts⟩,
  ⟨"grammars", "time.grammar", timeParts⟩,
  ⟨".", "sf.grammar", sfParts⟩,
  ⟨"examples/arithmetic", "arithmetic.grammar", arithmeticParts⟩,
  ⟨"examples/builtin", "builtin.grammar", builtinParts⟩,
  ⟨"examples/builtin", "cn_num.grammar", cnNumParts⟩,
  ⟨"examples/math/grammars", "number.zh.grammar", exNumberZhParts⟩,
  ⟨"examples/math/grammars", "math.zh.grammar", exMathZhParts⟩,
  ⟨"examples/math/grammars", "number.en.grammar", numberEnParts⟩,
  ⟨"examples/math/grammars", "math.en.grammar", mathEnParts⟩,
  ⟨"examples/math/grammars", "math.grammar", mathParts⟩,
  ⟨"examples/math/grammars", "latex.math.grammar", latexParts⟩]

end Fmr
